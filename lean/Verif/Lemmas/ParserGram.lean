import Verif.Lemmas.ParserStr
import Verif.Lemmas.ObjCore
/-! # The parser on grammatical texts; fuel monotonicity -/
namespace Imt.Parser
open Imt Spec

/-! ## More fuel does not change a result -/

/-- `x` is out of fuel or equal to `y`. -/
def Le {α : Type} (x y : Res α) : Prop := x = .fuel ∨ x = y

theorem Le.refl {α : Type} (x : Res α) : Le x x := Or.inr rfl

theorem Le.bind {α β : Type} {x y : Res α} {f g : α → Res β} (h : Le x y) (hf : ∀ a, Le (f a) (g a)) :
    Le (x >>= f) (y >>= g) := by
  rcases h with rfl | rfl
  · exact Or.inl rfl
  · cases x with
    | ok a => exact hf a
    | _ => exact Or.inr rfl

theorem parse_mono (cfg : Cfg) (f : Nat) :
    (∀ s, Le (parseV cfg f s) (parseV cfg (f + 1) s)) ∧
    (∀ s, Le (parseMembers cfg f s) (parseMembers cfg (f + 1) s)) ∧
    (∀ s, Le (parseItems cfg f s) (parseItems cfg (f + 1) s)) := by
  induction f with
  | zero =>
    refine ⟨fun s => Or.inl ?_, fun s => Or.inl ?_, fun s => Or.inl ?_⟩
    · unfold parseV; rfl
    · unfold parseMembers; rfl
    · unfold parseItems; rfl
  | succ f ih =>
    obtain ⟨ihV, ihM, ihI⟩ := ih
    refine ⟨fun s => ?_, fun s => ?_, fun s => ?_⟩
    · rw [parseV.eq_def, parseV.eq_def cfg (f + 1 + 1)]
      dsimp only
      split
      · exact Le.refl _
      · split
        · split
          · exact Le.refl _
          · split
            · exact Le.refl _
            · exact (ihM _).bind (fun _ => Le.refl _)
        · split
          · split
            · exact Le.refl _
            · split
              · exact Le.refl _
              · exact (ihI _).bind (fun _ => Le.refl _)
          · exact Le.refl _
    · rw [parseMembers.eq_def, parseMembers.eq_def cfg (f + 1 + 1)]
      cases s with
      | nil => exact Le.refl _
      | cons q r =>
        dsimp only
        split
        · refine (Le.refl _).bind (fun k => ?_)
          split
          · exact Le.refl _
          · split
            · refine (ihV _).bind (fun v => ?_)
              split
              · exact Le.refl _
              · split
                · exact Le.refl _
                · split
                  · exact (ihM _).bind (fun _ => Le.refl _)
                  · exact Le.refl _
            · exact Le.refl _
        · exact Le.refl _
    · rw [parseItems.eq_def, parseItems.eq_def cfg (f + 1 + 1)]
      dsimp only
      refine (ihV _).bind (fun v => ?_)
      split
      · exact Le.refl _
      · split
        · exact Le.refl _
        · split
          · exact (ihI _).bind (fun _ => Le.refl _)
          · exact Le.refl _

theorem parseV_mono (cfg : Cfg) (s : Bytes) (f k : Nat) (h : parseV cfg f s ≠ .fuel) :
    parseV cfg (f + k) s = parseV cfg f s := by
  induction k with
  | zero => rfl
  | succ k ih =>
    rcases (parse_mono cfg (f + k)).1 s with h' | h'
    · rw [ih] at h'; exact absurd h' h
    · rw [← Nat.add_assoc, ← h', ih]

/-- Any amount of fuel that gives a result gives the result of `parse`. -/
theorem parse_of_fuel (cfg : Cfg) (s : Bytes) (f : Nat) (x : Res (JV × Bytes)) (h : parseV cfg f s = x)
    (hx : x ≠ .fuel) : parse cfg s = x := by
  have hg := (parse_good cfg (2 * s.length + 1)).1 s (Nat.le_refl _)
  have hn : parseV cfg (2 * s.length + 1) s ≠ .fuel := by
    intro e; rw [e] at hg; exact hg
  unfold parse
  have e1 := parseV_mono cfg s (2 * s.length + 1) f hn
  have e2 := parseV_mono cfg s f (2 * s.length + 1) (by rw [h]; exact hx)
  rw [Nat.add_comm] at e2
  rw [← e1, e2, h]

/-! ## Grammatical texts -/

mutual
/-- The value a grammatical text is parsed to. -/
def interpV (cfg : Cfg) : SJ → JV
  | .null => .null
  | .bool b => .bool b
  | .num t => if cfg.precise then .num (numberFromStringRaw t.text (decide (¬ (t.frac = none ∧ t.exp = none))))
      else .num (interpNum t)
  | .str s => stringValue s
  | .arr l => .arr (interpL cfg l)
  | .obj l => .obj (Obj.mkObject JV.defined false (interpM cfg l))
def interpL (cfg : Cfg) : List SJ → List JV
  | [] => []
  | v :: l => interpV cfg v :: interpL cfg l
def interpM (cfg : Cfg) : List (Bytes × SJ) → List (Bytes × JV)
  | [] => []
  | (k, v) :: l => (k, interpV cfg v) :: interpM cfg l
end

theorem interpM_keys (cfg : Cfg) (l : List (Bytes × SJ)) : (interpM cfg l).map (·.1) = l.map (·.1) := by
  induction l with
  | nil => simp [interpM]
  | cons m l ih => obtain ⟨k, v⟩ := m; simp [interpM, ih]

/-- Accepted texts. -/
def Fits (cfg : Cfg) (v : SJ) : Prop := NumsFit cfg v ∧ DupFree cfg v
def FitsL (cfg : Cfg) (l : List SJ) : Prop := NumsFitL cfg l ∧ DupFreeL cfg l
def FitsM (cfg : Cfg) (l : List (Bytes × SJ)) : Prop := NumsFitM cfg l ∧ DupFreeM cfg l

theorem fits_arr {cfg : Cfg} {l} (h : Fits cfg (.arr l)) : FitsL cfg l := by
  simpa [Fits, FitsL, NumsFit, DupFree] using h
theorem fits_obj {cfg : Cfg} {l} (h : Fits cfg (.obj l)) : FitsM cfg l ∧ (cfg.allowDup = false → (l.map (·.1)).Nodup) := by
  simp only [Fits, NumsFit, DupFree] at h
  exact ⟨⟨h.1, h.2.1⟩, h.2.2⟩
theorem fitsL_cons {cfg : Cfg} {v l} (h : FitsL cfg (v :: l)) : Fits cfg v ∧ FitsL cfg l := by
  simp only [FitsL, NumsFitL, DupFreeL] at h
  exact ⟨⟨h.1.1, h.2.1⟩, ⟨h.1.2, h.2.2⟩⟩
theorem fitsM_cons {cfg : Cfg} {k v l} (h : FitsM cfg ((k, v) :: l)) : Fits cfg v ∧ FitsM cfg l := by
  simp only [FitsM, NumsFitM, DupFreeM] at h
  exact ⟨⟨h.1.1, h.2.1⟩, ⟨h.1.2, h.2.2⟩⟩

theorem isSpace_ws {c : Nat} (h : c = 0x20 ∨ c = 0x09 ∨ c = 0x0A ∨ c = 0x0D) : isSpace c = true := by
  rcases h with rfl | rfl | rfl | rfl <;> rfl

theorem skipWs_ws (w X : Bytes) (h : Ws w) : skipWs (w ++ X) = skipWs X := by
  induction w with
  | nil => rfl
  | cons c w ih =>
    have hc := isSpace_ws (h c (by simp))
    have := ih (fun x hx => h x (by simp [hx]))
    unfold skipWs at this ⊢
    rw [List.cons_append, List.dropWhile_cons, if_pos hc, this]

theorem skipWs_head {c : Nat} {r : Bytes} (h : isSpace c = false) : skipWs (c :: r) = c :: r := by
  unfold skipWs
  rw [List.dropWhile_cons, if_neg (by simp [h])]

theorem skipWs_idem (s : Bytes) : skipWs (skipWs s) = skipWs s := by
  induction s with
  | nil => rfl
  | cons c s ih =>
    by_cases h : isSpace c = true
    · have : skipWs (c :: s) = skipWs s := by unfold skipWs; rw [List.dropWhile_cons, if_pos h]
      rw [this, ih]
    · have : skipWs (c :: s) = c :: s := skipWs_head (by simpa using h)
      rw [this, this]

theorem parseV_skip (cfg : Cfg) (f : Nat) (s : Bytes) : parseV cfg f (skipWs s) = parseV cfg f s := by
  cases f with
  | zero => unfold parseV; rfl
  | succ f =>
    rw [parseV.eq_def, parseV.eq_def cfg (f + 1) s]
    dsimp only
    rw [skipWs_idem]

theorem parseItems_skip (cfg : Cfg) (f : Nat) (s : Bytes) : parseItems cfg f (skipWs s) = parseItems cfg f s := by
  cases f with
  | zero => unfold parseItems; rfl
  | succ f =>
    rw [parseItems.eq_def, parseItems.eq_def cfg (f + 1) s]
    dsimp only
    rw [parseV_skip]

theorem stopNum_ws (w : Bytes) (c : Nat) (r : Bytes) (h : Ws w) (hc : c = 0x2C ∨ c = 0x5D ∨ c = 0x7D) :
    StopNum (w ++ c :: r) := by
  intro x y e
  cases w with
  | nil =>
    simp only [List.nil_append, List.cons.injEq] at e
    obtain ⟨rfl, -⟩ := e
    rcases hc with rfl | rfl | rfl <;> decide
  | cons z w =>
    simp only [List.cons_append, List.cons.injEq] at e
    obtain ⟨rfl, -⟩ := e
    rcases h z (by simp) with rfl | rfl | rfl | rfl <;> decide

theorem stopNum_ws_only (w r : Bytes) (h : Ws w) (hr : StopNum r) : StopNum (w ++ r) := by
  cases w with
  | nil => exact hr
  | cons z w =>
    intro x y e
    simp only [List.cons_append, List.cons.injEq] at e
    obtain ⟨rfl, -⟩ := e
    rcases h z (by simp) with rfl | rfl | rfl | rfl <;> decide

/-- Beginning of the text of a value. -/
def HeadOk (t : Bytes) : Prop := ∃ c r, t = c :: r ∧ isSpace c = false ∧ c ≠ 0x5D ∧ c ≠ 0x7D

theorem NumTok.head {t : NumTok} (h : t.WF) : ∃ c r, t.text = c :: r ∧ (IsDig c ∨ c = 0x2D) := by
  obtain ⟨neg, int, frac, exp⟩ := t
  cases neg with
  | true => exact ⟨0x2D, _, rfl, Or.inr rfl⟩
  | false =>
    obtain ⟨⟨hd, -⟩, -, -⟩ := h
    obtain ⟨d, ds, rfl⟩ : ∃ d ds, int = d :: ds := List.exists_cons_of_ne_nil hd.1
    exact ⟨d, _, rfl, Or.inl (hd.2 d (by simp))⟩

theorem headOk_num {t : NumTok} (h : t.WF) : HeadOk t.text := by
  obtain ⟨c, r, e, hc⟩ := NumTok.head h
  refine ⟨c, r, e, ?_⟩
  unfold IsDig at hc
  have : ¬ (c ≤ 13) := by omega
  have h32 : c ≠ 32 := by omega
  refine ⟨?_, by omega, by omega⟩
  simp [isSpace, this, h32]

/-- Dispatch of `parseV` on a number token. -/
theorem parseV_num (cfg : Cfg) (t : NumTok) (h : t.WF) (f : Nat) (rest : Bytes) :
    parseV cfg (f + 1) (t.text ++ rest) = parseNumber cfg (t.text ++ rest) := by
  obtain ⟨c, r, e, hc⟩ := NumTok.head h
  obtain ⟨c', r', e', hsp, -⟩ := headOk_num h
  rw [e] at e' ⊢
  obtain ⟨rfl, rfl⟩ := List.cons.inj e'
  rw [List.cons_append, parseV.eq_def]
  dsimp only
  rw [skipWs_head hsp]
  dsimp only
  have hc' : (48 ≤ c ∧ c ≤ 57) ∨ c = 0x2D := hc
  rw [if_neg (by omega), if_neg (by omega), if_neg (by omega), if_neg (by omega), if_neg (by omega), if_neg (by omega)]
  rw [if_pos]
  rcases hc with hc | hc
  · exact Or.inl ((isDigit_iff c).2 hc)
  · exact Or.inr (Or.inr (Or.inl hc))

theorem parseNumber_tok (cfg : Cfg) (t : NumTok) (h : t.WF) (hf : cfg.precise = false → NumFits cfg t) (rest : Bytes)
    (hr : StopNum rest) : parseNumber cfg (t.text ++ rest) = .ok (interpV cfg (.num t), rest) := by
  by_cases hp : cfg.precise = true
  · unfold parseNumber
    rw [if_pos hp, parsePrecise_text t h rest hr]
    simp [interpV, hp]
  · have hp' : cfg.precise = false := by simpa using hp
    rw [parseNumber_text cfg hp' t (.of_wf h) (hf hp') rest hr]
    simp [interpV, hp']

theorem checkKw_self (k rest : Bytes) : checkKw k (k ++ rest) = .ok rest := by
  induction k with
  | nil => rfl
  | cons c k ih => simp [checkKw, ih]

/-- Statement proved for values. -/
def PV (cfg : Cfg) (t : Bytes) (v : SJ) : Prop :=
  HeadOk t ∧ (Fits cfg v → ∃ F, ∀ f, F ≤ f → ∀ rest, ((∃ n, v = .num n) → StopNum rest) →
    parseV cfg f (t ++ rest) = .ok (interpV cfg v, rest))
/-- Statement proved for items. -/
def PE (cfg : Cfg) (t : Bytes) (l : List SJ) : Prop :=
  (∀ X, ∃ c r, skipWs (t ++ X) = c :: r ∧ c ≠ 0x5D) ∧
  (FitsL cfg l → ∃ F, ∀ f, F ≤ f → ∀ rest, parseItems cfg f (t ++ 0x5D :: rest) = .ok (interpL cfg l, rest))
/-- Statement proved for members. -/
def PM (cfg : Cfg) (t : Bytes) (l : List (Bytes × SJ)) : Prop :=
  (∀ X, ∃ r, skipWs (t ++ X) = 0x22 :: r) ∧
  (FitsM cfg l → ∃ F, ∀ f, F ≤ f → ∀ rest, parseMembers cfg f (skipWs (t ++ 0x7D :: rest)) = .ok (interpM cfg l, rest))

theorem parseV_head (cfg : Cfg) (f : Nat) (c : Nat) (r : Bytes) (h : isSpace c = false) :
    parseV cfg (f + 1) (c :: r) =
      if c = 0x7B then
        match skipWs r with
        | [] => .err
        | c' :: r' =>
          if c' = 0x7D then .ok (.obj [], r')
          else do
            let m ← parseMembers cfg f (c' :: r')
            finishObj cfg m.1 m.2
      else if c = 0x5B then
        match skipWs r with
        | [] => .err
        | c' :: r' =>
          if c' = 0x5D then .ok (.arr [], r')
          else do
            let m ← parseItems cfg f (c' :: r')
            pure (.arr m.1, m.2)
      else if c = 0x22 then do
        let t ← readStr cfg Utf8.Dec.init r
        pure (stringValue t.1, t.2)
      else if c = 0x74 then do
        let t ← checkKw (ascii "true") (c :: r)
        pure (.bool true, t)
      else if c = 0x66 then do
        let t ← checkKw (ascii "false") (c :: r)
        pure (.bool false, t)
      else if c = 0x6E then do
        let t ← checkKw (ascii "null") (c :: r)
        pure (.null, t)
      else if isDigit c = true ∨ c = 0x2B ∨ c = 0x2D ∨ c = 0x2E then parseNumber cfg (c :: r)
      else .err := by
  rw [parseV.eq_def]
  dsimp only
  rw [skipWs_head h]
  rfl

theorem pv_kw (cfg : Cfg) : PV cfg (ascii "null") .null ∧ PV cfg (ascii "true") (.bool true) ∧
    PV cfg (ascii "false") (.bool false) := by
  refine ⟨⟨⟨0x6E, _, rfl, by decide, by decide, by decide⟩, fun _ => ⟨1, fun f hf rest _ => ?_⟩⟩,
    ⟨⟨0x74, _, rfl, by decide, by decide, by decide⟩, fun _ => ⟨1, fun f hf rest _ => ?_⟩⟩,
    ⟨⟨0x66, _, rfl, by decide, by decide, by decide⟩, fun _ => ⟨1, fun f hf rest _ => ?_⟩⟩⟩
  all_goals
    obtain ⟨f, rfl⟩ : ∃ g, f = g + 1 := ⟨f - 1, by omega⟩
  · have h := checkKw_self (ascii "null") rest
    have e : ascii "null" ++ rest = 0x6E :: 0x75 :: 0x6C :: 0x6C :: rest := rfl
    rw [e] at h ⊢
    rw [parseV_head _ _ _ _ (by decide)]
    simp [h, interpV]
  · have h := checkKw_self (ascii "true") rest
    have e : ascii "true" ++ rest = 0x74 :: 0x72 :: 0x75 :: 0x65 :: rest := rfl
    rw [e] at h ⊢
    rw [parseV_head _ _ _ _ (by decide)]
    simp [h, interpV]
  · have h := checkKw_self (ascii "false") rest
    have e : ascii "false" ++ rest = 0x66 :: 0x61 :: 0x6C :: 0x73 :: 0x65 :: rest := rfl
    rw [e] at h ⊢
    rw [parseV_head _ _ _ _ (by decide)]
    simp [h, interpV]

theorem headOk_skip {t : Bytes} (h : HeadOk t) (w X : Bytes) (hw : Ws w) :
    ∃ c r, skipWs (w ++ (t ++ X)) = c :: r ∧ c ≠ 0x5D ∧ c ≠ 0x7D := by
  obtain ⟨c, r, rfl, hs, h1, h2⟩ := h
  exact ⟨c, r ++ X, by rw [skipWs_ws _ _ hw, List.cons_append, skipWs_head hs], h1, h2⟩

theorem parseV_ws (cfg : Cfg) (f : Nat) (w X : Bytes) (hw : Ws w) : parseV cfg f (w ++ X) = parseV cfg f X := by
  rw [← parseV_skip, skipWs_ws _ _ hw, parseV_skip]

theorem skip_sep (w : Bytes) (c : Nat) (r : Bytes) (hw : Ws w) (hc : isSpace c = false) :
    skipWs (w ++ c :: r) = c :: r := by rw [skipWs_ws _ _ hw, skipWs_head hc]

theorem finishObj_ok (cfg : Cfg) (l : List (Bytes × SJ)) (h : cfg.allowDup = false → (l.map (·.1)).Nodup) (r : Bytes) :
    finishObj cfg (interpM cfg l) r = .ok (.obj (Obj.mkObject JV.defined false (interpM cfg l)), r) := by
  unfold finishObj
  dsimp only
  rw [if_neg]
  rintro ⟨h1, h2⟩
  apply h2
  have := h h1
  rw [← interpM_keys cfg] at this
  exact (Obj.mkObject_length_eq_iff JV.defined false (interpM cfg l)).2 this

theorem pv_num (cfg : Cfg) {t : NumTok} (ht : t.WF) : PV cfg t.text (.num t) := by
  refine ⟨headOk_num ht, fun hf => ⟨1, fun f hf1 rest hr => ?_⟩⟩
  obtain ⟨f, rfl⟩ : ∃ g, f = g + 1 := ⟨f - 1, by omega⟩
  rw [parseV_num cfg t ht, parseNumber_tok cfg t ht (by simpa [Fits, NumsFit, DupFree] using hf) rest (hr ⟨t, rfl⟩)]

theorem pv_str (cfg : Cfg) {t s : Bytes} (ht : StrBody False t s) : PV cfg (0x22 :: (t ++ [0x22])) (.str s) := by
  refine ⟨⟨0x22, _, rfl, by decide, by decide, by decide⟩, fun _ => ⟨1, fun f hf1 rest _ => ?_⟩⟩
  obtain ⟨f, rfl⟩ : ∃ g, f = g + 1 := ⟨f - 1, by omega⟩
  have hb := readStr_body cfg ht Utf8.Dec.init rest
  rw [List.cons_append, parseV_head _ _ _ _ (by decide)]
  simp [hb, interpV]

theorem pv_arr0 (cfg : Cfg) {w : Bytes} (hw : Ws w) : PV cfg (0x5B :: (w ++ [0x5D])) (.arr []) := by
  refine ⟨⟨0x5B, _, rfl, by decide, by decide, by decide⟩, fun _ => ⟨1, fun f hf1 rest _ => ?_⟩⟩
  obtain ⟨f, rfl⟩ : ∃ g, f = g + 1 := ⟨f - 1, by omega⟩
  have hs := skip_sep w 0x5D rest hw (by decide)
  rw [List.cons_append, parseV_head _ _ _ _ (by decide)]
  simp [hs, interpV, interpL]

theorem pv_arr (cfg : Cfg) {t : Bytes} {l : List SJ} (ih : PE cfg t l) : PV cfg (0x5B :: (t ++ [0x5D])) (.arr l) := by
  refine ⟨⟨0x5B, _, rfl, by decide, by decide, by decide⟩, fun hf => ?_⟩
  obtain ⟨F, hF⟩ := ih.2 (fits_arr hf)
  refine ⟨F + 1, fun f hf1 rest _ => ?_⟩
  obtain ⟨f, rfl⟩ : ∃ g, f = g + 1 := ⟨f - 1, by omega⟩
  obtain ⟨c, r, e, hc⟩ := ih.1 (0x5D :: rest)
  have hI := hF f (by omega) rest
  rw [← parseItems_skip, e] at hI
  rw [List.cons_append, parseV_head _ _ _ _ (by decide)]
  simp [e, hc, hI, interpV]

theorem pv_obj0 (cfg : Cfg) {w : Bytes} (hw : Ws w) : PV cfg (0x7B :: (w ++ [0x7D])) (.obj []) := by
  refine ⟨⟨0x7B, _, rfl, by decide, by decide, by decide⟩, fun _ => ⟨1, fun f hf1 rest _ => ?_⟩⟩
  obtain ⟨f, rfl⟩ : ∃ g, f = g + 1 := ⟨f - 1, by omega⟩
  have hs := skip_sep w 0x7D rest hw (by decide)
  rw [List.cons_append, parseV_head _ _ _ _ (by decide)]
  simp [hs, interpV, interpM]
  rfl

theorem pv_obj (cfg : Cfg) {t : Bytes} {l : List (Bytes × SJ)} (ih : PM cfg t l) : PV cfg (0x7B :: (t ++ [0x7D])) (.obj l) := by
  refine ⟨⟨0x7B, _, rfl, by decide, by decide, by decide⟩, fun hf => ?_⟩
  have hf := fits_obj hf
  obtain ⟨F, hF⟩ := ih.2 hf.1
  refine ⟨F + 1, fun f hf1 rest _ => ?_⟩
  obtain ⟨f, rfl⟩ : ∃ g, f = g + 1 := ⟨f - 1, by omega⟩
  obtain ⟨r, e⟩ := ih.1 (0x7D :: rest)
  have hM := hF f (by omega) rest
  rw [e] at hM
  rw [List.cons_append, parseV_head _ _ _ _ (by decide)]
  simp [e, hM, interpV, finishObj_ok cfg l hf.2]

theorem pe_one (cfg : Cfg) {w t w' : Bytes} {v : SJ} (hw : Ws w) (hw' : Ws w') (ih : PV cfg t v) : PE cfg (w ++ (t ++ w')) [v] := by
  refine ⟨fun X => ?_, fun hf => ?_⟩
  · obtain ⟨c, r, e, hc, -⟩ := headOk_skip ih.1 w (w' ++ X) hw
    exact ⟨c, r, by simpa using e, hc⟩
  · have hf := (fitsL_cons hf).1
    obtain ⟨F, hF⟩ := ih.2 hf
    refine ⟨F + 1, fun f hf1 rest => ?_⟩
    obtain ⟨f, rfl⟩ : ∃ g, f = g + 1 := ⟨f - 1, by omega⟩
    have hV := hF f (by omega) (w' ++ 0x5D :: rest) (fun _ => stopNum_ws _ _ _ hw' (by simp))
    rw [parseItems]
    simp only [List.append_assoc]
    rw [parseV_ws _ _ _ _ hw, hV]
    simp [skip_sep w' 0x5D rest hw' (by decide), interpL]

theorem pe_cons (cfg : Cfg) {w t w' t' : Bytes} {v : SJ} {l : List SJ} (hw : Ws w) (hw' : Ws w') (ih : PV cfg t v) (ih' : PE cfg t' l) :
    PE cfg (w ++ (t ++ (w' ++ 0x2C :: t'))) (v :: l) := by
  refine ⟨fun X => ?_, fun hf => ?_⟩
  · obtain ⟨c, r, e, hc, -⟩ := headOk_skip ih.1 w (w' ++ 0x2C :: (t' ++ X)) hw
    exact ⟨c, r, by simpa using e, hc⟩
  · have hf := fitsL_cons hf
    obtain ⟨F, hF⟩ := ih.2 hf.1
    obtain ⟨F', hF'⟩ := ih'.2 hf.2
    refine ⟨max F F' + 1, fun f hf1 rest => ?_⟩
    obtain ⟨f, rfl⟩ : ∃ g, f = g + 1 := ⟨f - 1, by omega⟩
    have hV := hF f (by omega) (w' ++ 0x2C :: (t' ++ 0x5D :: rest)) (fun _ => stopNum_ws _ _ _ hw' (by simp))
    have hI := hF' f (by omega) rest
    rw [parseItems]
    simp only [List.append_assoc, List.cons_append]
    rw [parseV_ws _ _ _ _ hw, hV]
    simp [skip_sep w' 0x2C _ hw' (by decide), interpL, hI]

theorem pm_one (cfg : Cfg) {w k s w1 w2 t w3 : Bytes} {v : SJ} (hw : Ws w) (hk : StrBody False k s) (hw1 : Ws w1) (hw2 : Ws w2)
    (hw3 : Ws w3) (ih : PV cfg t v) :
    PM cfg (w ++ (0x22 :: (k ++ (0x22 :: (w1 ++ (0x3A :: (w2 ++ (t ++ w3)))))))) [(s, v)] := by
  refine ⟨fun X => ?_, fun hf => ?_⟩
  · refine ⟨?_, ?_⟩
    rotate_left
    · rw [List.append_assoc, List.cons_append, skip_sep _ _ _ hw (by decide)]
  · have hf := (fitsM_cons hf).1
    obtain ⟨F, hF⟩ := ih.2 hf
    refine ⟨F + 1, fun f hf1 rest => ?_⟩
    obtain ⟨f, rfl⟩ : ∃ g, f = g + 1 := ⟨f - 1, by omega⟩
    have hV := hF f (by omega) (w3 ++ 0x7D :: rest) (fun _ => stopNum_ws _ _ _ hw3 (by simp))
    rw [List.append_assoc, List.cons_append, skip_sep _ _ _ hw (by decide)]
    simp only [List.append_assoc, List.cons_append]
    rw [parseMembers, if_pos rfl, readStr_body cfg hk]
    simp only [Res.bind_ok]
    rw [skip_sep _ _ _ hw1 (by decide)]
    dsimp only
    rw [if_pos rfl, parseV_ws _ _ _ _ hw2, hV]
    simp [skip_sep w3 0x7D rest hw3 (by decide), interpM]

theorem pm_cons (cfg : Cfg) {w k s w1 w2 t w3 t' : Bytes} {v : SJ} {l : List (Bytes × SJ)} (hw : Ws w) (hk : StrBody False k s) (hw1 : Ws w1)
    (hw2 : Ws w2) (hw3 : Ws w3) (ih : PV cfg t v) (ih' : PM cfg t' l) :
    PM cfg (w ++ (0x22 :: (k ++ (0x22 :: (w1 ++ (0x3A :: (w2 ++ (t ++ (w3 ++ 0x2C :: t'))))))))) ((s, v) :: l) := by
  refine ⟨fun X => ?_, fun hf => ?_⟩
  · refine ⟨?_, ?_⟩
    rotate_left
    · rw [List.append_assoc, List.cons_append, skip_sep _ _ _ hw (by decide)]
  · have hf := fitsM_cons hf
    obtain ⟨F, hF⟩ := ih.2 hf.1
    obtain ⟨F', hF'⟩ := ih'.2 hf.2
    refine ⟨max F F' + 1, fun f hf1 rest => ?_⟩
    obtain ⟨f, rfl⟩ : ∃ g, f = g + 1 := ⟨f - 1, by omega⟩
    have hV := hF f (by omega) (w3 ++ 0x2C :: (t' ++ 0x7D :: rest)) (fun _ => stopNum_ws _ _ _ hw3 (by simp))
    have hM := hF' f (by omega) rest
    rw [List.append_assoc, List.cons_append, skip_sep _ _ _ hw (by decide)]
    simp only [List.append_assoc, List.cons_append]
    rw [parseMembers, if_pos rfl, readStr_body cfg hk]
    simp only [Res.bind_ok]
    rw [skip_sep _ _ _ hw1 (by decide)]
    dsimp only
    rw [if_pos rfl, parseV_ws _ _ _ _ hw2, hV]
    simp [skip_sep w3 0x2C _ hw3 (by decide), interpM, hM]

mutual
theorem pv_of_grammar (cfg : Cfg) {t : Bytes} {v : SJ} (h : JVal False t v) : PV cfg t v :=
  match h with
  | .null => (pv_kw cfg).1
  | .true => (pv_kw cfg).2.1
  | .false => (pv_kw cfg).2.2
  | .num ht => pv_num cfg ht
  | .str ht => pv_str cfg ht
  | .arr0 hw => pv_arr0 cfg hw
  | .arr h => pv_arr cfg (pe_of_grammar cfg h)
  | .obj0 hw => pv_obj0 cfg hw
  | .obj h => pv_obj cfg (pm_of_grammar cfg h)
theorem pe_of_grammar (cfg : Cfg) {t : Bytes} {l : List SJ} (h : JElems False t l) : PE cfg t l :=
  match h with
  | .one hw h hw' => pe_one cfg hw hw' (pv_of_grammar cfg h)
  | .cons hw h hw' hl => pe_cons cfg hw hw' (pv_of_grammar cfg h) (pe_of_grammar cfg hl)
theorem pm_of_grammar (cfg : Cfg) {t : Bytes} {l : List (Bytes × SJ)} (h : JMembs False t l) : PM cfg t l :=
  match h with
  | .one hw hk hw1 hw2 h hw3 => pm_one cfg hw hk hw1 hw2 hw3 (pv_of_grammar cfg h)
  | .cons hw hk hw1 hw2 h hw3 hl => pm_cons cfg hw hk hw1 hw2 hw3 (pv_of_grammar cfg h) (pm_of_grammar cfg hl)
end

/-- The parser on a grammatical text. -/
theorem parse_grammar (cfg : Cfg) {t : Bytes} {v : SJ} (h : JVal False t v) (hf : Fits cfg v) (w rest : Bytes) (hw : Ws w)
    (hr : StopNum rest) : parse cfg (w ++ (t ++ rest)) = .ok (interpV cfg v, rest) := by
  obtain ⟨F, hF⟩ := (pv_of_grammar cfg h).2 hf
  refine parse_of_fuel cfg _ F _ ?_ (by simp)
  rw [parseV_ws _ _ _ _ hw, hF F (Nat.le_refl _) rest (fun _ => hr)]

/-- For anything but a number the text may be followed by anything. -/
theorem parse_grammar_own (cfg : Cfg) {t : Bytes} {v : SJ} (h : JVal False t v) (hf : Fits cfg v) (hv : ∀ n, v ≠ .num n)
    (w rest : Bytes) (hw : Ws w) : parse cfg (w ++ (t ++ rest)) = .ok (interpV cfg v, rest) := by
  obtain ⟨F, hF⟩ := (pv_of_grammar cfg h).2 hf
  refine parse_of_fuel cfg _ F _ ?_ (by simp)
  rw [parseV_ws _ _ _ _ hw, hF F (Nat.le_refl _) rest (fun ⟨n, hn⟩ => absurd hn (hv n))]

end Imt.Parser
