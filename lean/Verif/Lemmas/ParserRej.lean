import Verif.Lemmas.ParserDup
/-! # Which JSON texts are rejected: exactly those outside the limits -/
namespace Imt.Parser
open Imt Spec

def RV (cfg : Cfg) (t : Bytes) (v : SJ) : Prop :=
  ¬ Fits cfg v → ∃ F, ∀ f, F ≤ f → ∀ rest, StopNum rest → parseV cfg f (t ++ rest) = .err
def RE (cfg : Cfg) (t : Bytes) (l : List SJ) : Prop :=
  ¬ FitsL cfg l → ∃ F, ∀ f, F ≤ f → ∀ rest, parseItems cfg f (t ++ 0x5D :: rest) = .err
def RM (cfg : Cfg) (t : Bytes) (l : List (Bytes × SJ)) : Prop :=
  ¬ FitsM cfg l → ∃ F, ∀ f, F ≤ f → ∀ rest, parseMembers cfg f (skipWs (t ++ 0x7D :: rest)) = .err

theorem parseExp_large (e : Nat × Bytes × Bytes) (rest : Bytes)
    (hw : (e.1 = 0x65 ∨ e.1 = 0x45) ∧ (e.2.1 = [] ∨ e.2.1 = [0x2B] ∨ e.2.1 = [0x2D]) ∧ Digits1 e.2.2)
    (hf : 2 ^ 64 ≤ decVal e.2.2) : parseExp (expText (some e) ++ rest) = .err := by
  obtain ⟨ch, sg, ds⟩ := e
  obtain ⟨hE, hs, hd⟩ := hw
  dsimp only at hE hs hd hf
  have hne := hd.1
  obtain ⟨m, ds2, hu, -⟩ := parseUnsigned_large ds rest hd.2 0 (by decide) (by rw [← decVal_eq]; exact hf)
  simp only [expText, List.cons_append, List.append_assoc, parseExp]
  rw [if_pos ((isE_iff ch).2 hE)]
  have hsg : readSign (sg ++ (ds ++ rest)) = (decide (sg = [0x2D]), ds ++ rest) := by
    rcases hs with rfl | rfl | rfl
    · simpa using readSign_digits ds rest hd
    · simp [readSign]
    · simp [readSign]
  rw [hsg]
  obtain ⟨d, ds', rfl⟩ : ∃ d ds', ds = d :: ds' := List.exists_cons_of_ne_nil hne
  dsimp only [List.cons_append]
  rw [if_pos ((isDigit_iff d).2 (hd.2 d (by simp)))]
  rw [List.cons_append] at hu
  rw [hu]
  rfl

theorem parseDouble_reject (cfg : Cfg) (a : Nat) (neg : Bool) (ds : Bytes) (f : Option Bytes)
    (e : Option (Nat × Bytes × Bytes)) (rest : Bytes) (hd : ∀ c ∈ ds, IsDig c) (hf : ∀ x ∈ f, Digits1 x)
    (hw : ∀ x ∈ e, (x.1 = 0x65 ∨ x.1 = 0x45) ∧ (x.2.1 = [] ∨ x.2.1 = [0x2B] ∨ x.2.1 = [0x2D]) ∧ Digits1 x.2.2)
    (hr : StopNum rest) (hx : ¬ ExpFits e ∨ (ds ≠ [] ∧ cfg.tooLong (accVal a ds) = true)) :
    parseDouble cfg a neg (ds ++ (fracText f ++ (expText e ++ rest))) = .err := by
  have he := expText_stop e rest hr (fun x h => (hw x h).1)
  have hfs : StopDig (fracText f ++ (expText e ++ rest)) := by
    cases f with
    | none => simpa [fracText] using he.1
    | some f =>
      intro c r h
      simp only [fracText, List.cons_append, List.cons.injEq] at h
      rw [← h.1]; decide
  unfold parseDouble
  simp only [digitsVal_append ds _ hd hfs a 0]
  by_cases hl : 0 + ds.length > 0 ∧ cfg.tooLong (accVal a ds) = true
  · rw [if_pos (by simpa using hl)]
  · rw [if_neg (by simpa using hl), parseFrac_text f _ hf he.1 he.2]
    simp only [Res.bind_ok]
    rcases hx with hx | ⟨hne, ht⟩
    · cases e with
      | none => exact absurd (by simp [ExpFits]) hx
      | some e =>
        rw [parseExp_large e rest (hw e rfl) (by
          rcases Nat.lt_or_ge (decVal e.2.2) (2 ^ 64) with h | h
          · exact absurd (fun x hx => by cases hx; exact h) hx
          · exact h)]
        rfl
    · exact absurd ⟨by have := List.length_pos_iff.2 hne; omega, ht⟩ hl

/-- Default mode: a number token outside the limits. -/
theorem parseNumber_reject (cfg : Cfg) (hc : cfg.precise = false) (htl : ∀ n < 2 ^ 64, cfg.tooLong n = false) (t : NumTok)
    (h : Loose t) (hf : ¬ NumFits cfg t) (rest : Bytes) (hr : StopNum rest) : parseNumber cfg (t.text ++ rest) = .err := by
  obtain ⟨neg, int, frac, exp⟩ := t
  obtain ⟨hd, hfr, hex⟩ := h
  dsimp only at hd hfr hex
  have he := expText_stop exp rest hr (fun x h => (hex x h).1)
  unfold parseNumber
  rw [if_neg (by simp [hc])]
  have hsg : readSign (NumTok.text ⟨neg, int, frac, exp⟩ ++ rest) =
      (neg, int ++ (fracText frac ++ (expText exp ++ rest))) := by
    cases neg
    · simp only [NumTok.text, List.append_assoc]
      exact readSign_digits int _ hd
    · simp [NumTok.text, readSign]
  rw [hsg]
  dsimp only
  obtain ⟨d, ds, rfl⟩ : ∃ d ds, int = d :: ds := List.exists_cons_of_ne_nil hd.1
  dsimp only [List.cons_append]
  rw [if_pos (Or.inl ((isDigit_iff d).2 (hd.2 d (by simp))))]
  have hfs : StopDig (fracText frac ++ (expText exp ++ rest)) := by
    cases frac with
    | none => simpa [fracText] using he.1
    | some f =>
      intro c r h
      simp only [fracText, List.cons_append, List.cons.injEq] at h
      rw [← h.1]; decide
  by_cases hv : decVal (d :: ds) < 2 ^ 64
  · have hx : ¬ ExpFits exp := fun h => hf ⟨htl _ hv, h⟩
    have hu := parseUnsigned_small (d :: ds) _ hd.2 hfs 0 hv
    rw [List.cons_append, ← decVal_eq] at hu
    rw [hu]
    dsimp only
    rw [if_pos]
    · exact parseDouble_reject cfg _ neg [] frac exp rest (by simp) hfr hex hr (.inl hx)
    · cases frac with
      | some f => right; left; simp [fracText]
      | none =>
        cases exp with
        | none => exact absurd (by simp [ExpFits]) hx
        | some e =>
          right; right
          have := (hex e rfl).1
          simp [fracText, expText, isE, this]
  · obtain ⟨m, ds2, hu, hne, hd2, hval⟩ := parseUnsigned_large (d :: ds) (fracText frac ++ (expText exp ++ rest)) hd.2 0
      (by decide) (by rw [← decVal_eq]; omega)
    rw [List.cons_append] at hu
    rw [hu]
    dsimp only
    rw [if_pos (Or.inl rfl)]
    refine parseDouble_reject cfg m neg ds2 frac exp rest hd2 hfr hex hr ?_
    by_cases hx : ExpFits exp
    · right
      refine ⟨hne, ?_⟩
      rw [hval, ← decVal_eq]
      cases htl' : cfg.tooLong (decVal (d :: ds)) with
      | true => rfl
      | false => exact absurd ⟨htl', hx⟩ hf
    · exact .inl hx

theorem rv_num (cfg : Cfg) (htl : ∀ n < 2 ^ 64, cfg.tooLong n = false) {t : NumTok} (ht : t.WF) : RV cfg t.text (.num t) := by
  intro hf
  refine ⟨1, fun f hf1 rest hr => ?_⟩
  obtain ⟨f, rfl⟩ : ∃ g, f = g + 1 := ⟨f - 1, by omega⟩
  have hp : ¬ (cfg.precise = false → NumFits cfg t) := fun h => hf (by simpa [Fits, NumsFit, DupFree] using h)
  have hc : cfg.precise = false := Classical.byContradiction fun h => hp (fun h' => absurd h' h)
  rw [parseV_num cfg t ht, parseNumber_reject cfg hc htl t (.of_wf ht) (fun h => hp (fun _ => h)) rest hr]

theorem rv_arr (cfg : Cfg) {t : Bytes} {l : List SJ} (p : PE cfg t l) (q : RE cfg t l) :
    RV cfg (0x5B :: (t ++ [0x5D])) (.arr l) := by
  intro hd
  obtain ⟨F, hF⟩ := q (fun h => hd (by simpa [Fits, FitsL, NumsFit, DupFree] using h))
  refine ⟨F + 1, fun f hf1 rest _ => ?_⟩
  obtain ⟨f, rfl⟩ : ∃ g, f = g + 1 := ⟨f - 1, by omega⟩
  obtain ⟨c, r, e, hc⟩ := p.1 (0x5D :: rest)
  have hI := hF f (by omega) rest
  rw [← parseItems_skip, e] at hI
  rw [List.cons_append, parseV_head _ _ _ _ (by decide)]
  simp [e, hc, hI]

theorem rv_obj (cfg : Cfg) {t : Bytes} {l : List (Bytes × SJ)} (p : PM cfg t l) (q : RM cfg t l) :
    RV cfg (0x7B :: (t ++ [0x7D])) (.obj l) := by
  intro hd
  by_cases hdm : FitsM cfg l
  · have hdup : ¬ (cfg.allowDup = false → (l.map (·.1)).Nodup) := by
      intro h
      exact hd (by simp only [Fits, NumsFit, DupFree]; exact ⟨hdm.1, hdm.2, h⟩)
    have h1 : cfg.allowDup = false := Classical.byContradiction fun h => hdup (fun h' => absurd h' h)
    have h2 : ¬ (l.map (·.1)).Nodup := fun h => hdup (fun _ => h)
    obtain ⟨F, hF⟩ := p.2 hdm
    refine ⟨F + 1, fun f hf1 rest _ => ?_⟩
    obtain ⟨f, rfl⟩ : ∃ g, f = g + 1 := ⟨f - 1, by omega⟩
    obtain ⟨r, e⟩ := p.1 (0x7D :: rest)
    have hM := hF f (by omega) rest
    rw [e] at hM
    rw [List.cons_append, parseV_head _ _ _ _ (by decide)]
    simp [e, hM, finishObj_err cfg l h1 h2]
  · obtain ⟨F, hF⟩ := q hdm
    refine ⟨F + 1, fun f hf1 rest _ => ?_⟩
    obtain ⟨f, rfl⟩ : ∃ g, f = g + 1 := ⟨f - 1, by omega⟩
    obtain ⟨r, e⟩ := p.1 (0x7D :: rest)
    have hM := hF f (by omega) rest
    rw [e] at hM
    rw [List.cons_append, parseV_head _ _ _ _ (by decide)]
    simp [e, hM]

theorem re_one (cfg : Cfg) {w t w' : Bytes} {v : SJ} (hw : Ws w) (hw' : Ws w') (q : RV cfg t v) :
    RE cfg (w ++ (t ++ w')) [v] := by
  intro hd
  obtain ⟨F, hF⟩ := q (fun h => hd (by simpa [Fits, FitsL, NumsFitL, DupFreeL] using h))
  refine ⟨F + 1, fun f hf1 rest => ?_⟩
  obtain ⟨f, rfl⟩ : ∃ g, f = g + 1 := ⟨f - 1, by omega⟩
  have hV := hF f (by omega) (w' ++ 0x5D :: rest) (stopNum_ws _ _ _ hw' (by simp))
  rw [parseItems]
  simp only [List.append_assoc]
  rw [parseV_ws _ _ _ _ hw, hV]
  rfl

theorem re_cons (cfg : Cfg) {w t w' t' : Bytes} {v : SJ} {l : List SJ} (hw : Ws w) (hw' : Ws w') (p : PV cfg t v)
    (q : RV cfg t v) (q' : RE cfg t' l) : RE cfg (w ++ (t ++ (w' ++ 0x2C :: t'))) (v :: l) := by
  intro hd
  by_cases hv : Fits cfg v
  · have hl : ¬ FitsL cfg l := fun h => hd (by simp only [FitsL, NumsFitL, DupFreeL]; exact ⟨⟨hv.1, h.1⟩, hv.2, h.2⟩)
    obtain ⟨F, hF⟩ := p.2 hv
    obtain ⟨F', hF'⟩ := q' hl
    refine ⟨max F F' + 1, fun f hf1 rest => ?_⟩
    obtain ⟨f, rfl⟩ : ∃ g, f = g + 1 := ⟨f - 1, by omega⟩
    have hV := hF f (by omega) (w' ++ 0x2C :: (t' ++ 0x5D :: rest)) (fun _ => stopNum_ws _ _ _ hw' (by simp))
    have hI := hF' f (by omega) rest
    rw [parseItems]
    simp only [List.append_assoc, List.cons_append]
    rw [parseV_ws _ _ _ _ hw, hV]
    simp [skip_sep w' 0x2C _ hw' (by decide), hI]
  · obtain ⟨F, hF⟩ := q hv
    refine ⟨F + 1, fun f hf1 rest => ?_⟩
    obtain ⟨f, rfl⟩ : ∃ g, f = g + 1 := ⟨f - 1, by omega⟩
    have hV := hF f (by omega) (w' ++ 0x2C :: (t' ++ 0x5D :: rest)) (stopNum_ws _ _ _ hw' (by simp))
    rw [parseItems]
    simp only [List.append_assoc, List.cons_append]
    rw [parseV_ws _ _ _ _ hw, hV]
    rfl

theorem rm_one (cfg : Cfg) {w k s w1 w2 t w3 : Bytes} {v : SJ} (hw : Ws w) (hk : StrBody False k s) (hw1 : Ws w1)
    (hw2 : Ws w2) (hw3 : Ws w3) (q : RV cfg t v) :
    RM cfg (w ++ (0x22 :: (k ++ (0x22 :: (w1 ++ (0x3A :: (w2 ++ (t ++ w3)))))))) [(s, v)] := by
  intro hd
  obtain ⟨F, hF⟩ := q (fun h => hd (by simpa [Fits, FitsM, NumsFitM, DupFreeM] using h))
  refine ⟨F + 1, fun f hf1 rest => ?_⟩
  obtain ⟨f, rfl⟩ : ∃ g, f = g + 1 := ⟨f - 1, by omega⟩
  have hV := hF f (by omega) (w3 ++ 0x7D :: rest) (stopNum_ws _ _ _ hw3 (by simp))
  rw [List.append_assoc, List.cons_append, skip_sep _ _ _ hw (by decide)]
  simp only [List.append_assoc, List.cons_append]
  rw [parseMembers, if_pos rfl, readStr_body cfg hk]
  simp only [Res.bind_ok]
  rw [skip_sep _ _ _ hw1 (by decide)]
  dsimp only
  rw [if_pos rfl, parseV_ws _ _ _ _ hw2, hV]
  rfl

theorem rm_cons (cfg : Cfg) {w k s w1 w2 t w3 t' : Bytes} {v : SJ} {l : List (Bytes × SJ)} (hw : Ws w)
    (hk : StrBody False k s) (hw1 : Ws w1) (hw2 : Ws w2) (hw3 : Ws w3) (p : PV cfg t v) (q : RV cfg t v)
    (q' : RM cfg t' l) :
    RM cfg (w ++ (0x22 :: (k ++ (0x22 :: (w1 ++ (0x3A :: (w2 ++ (t ++ (w3 ++ 0x2C :: t'))))))))) ((s, v) :: l) := by
  intro hd
  have main : ∀ f rest, parseMembers cfg (f + 1) (skipWs ((w ++ (0x22 :: (k ++ (0x22 :: (w1 ++ (0x3A :: (w2 ++ (t ++
      (w3 ++ 0x2C :: t'))))))))) ++ 0x7D :: rest)) = (do
        let v ← parseV cfg f (t ++ (w3 ++ 0x2C :: (t' ++ 0x7D :: rest)))
        match skipWs v.2 with
        | [] => .err
        | c2 :: r4 =>
          if c2 = 0x7D then pure ([(s, v.1)], r4)
          else if c2 = 0x2C then do
            let m ← parseMembers cfg f (skipWs r4)
            pure ((s, v.1) :: m.1, m.2)
          else .err) := by
    intro f rest
    rw [List.append_assoc, List.cons_append, skip_sep _ _ _ hw (by decide)]
    simp only [List.append_assoc, List.cons_append]
    rw [parseMembers, if_pos rfl, readStr_body cfg hk]
    simp only [Res.bind_ok]
    rw [skip_sep _ _ _ hw1 (by decide)]
    dsimp only
    rw [if_pos rfl, parseV_ws _ _ _ _ hw2]
    rfl
  by_cases hv : Fits cfg v
  · have hl : ¬ FitsM cfg l := fun h => hd (by simp only [FitsM, NumsFitM, DupFreeM]; exact ⟨⟨hv.1, h.1⟩, hv.2, h.2⟩)
    obtain ⟨F, hF⟩ := p.2 hv
    obtain ⟨F', hF'⟩ := q' hl
    refine ⟨max F F' + 1, fun f hf1 rest => ?_⟩
    obtain ⟨f, rfl⟩ : ∃ g, f = g + 1 := ⟨f - 1, by omega⟩
    have hV := hF f (by omega) (w3 ++ 0x2C :: (t' ++ 0x7D :: rest)) (fun _ => stopNum_ws _ _ _ hw3 (by simp))
    have hM := hF' f (by omega) rest
    rw [main, hV]
    simp [skip_sep w3 0x2C _ hw3 (by decide), hM]
  · obtain ⟨F, hF⟩ := q hv
    refine ⟨F + 1, fun f hf1 rest => ?_⟩
    obtain ⟨f, rfl⟩ : ∃ g, f = g + 1 := ⟨f - 1, by omega⟩
    have hV := hF f (by omega) (w3 ++ 0x2C :: (t' ++ 0x7D :: rest)) (stopNum_ws _ _ _ hw3 (by simp))
    rw [main, hV]
    rfl

mutual
theorem rv_of_grammar (cfg : Cfg) (htl : ∀ n < 2 ^ 64, cfg.tooLong n = false) {t : Bytes} {v : SJ} (h : JVal False t v) : RV cfg t v :=
  match h with
  | .null => fun hd => absurd (by simp [Fits, NumsFit, DupFree]) hd
  | .true => fun hd => absurd (by simp [Fits, NumsFit, DupFree]) hd
  | .false => fun hd => absurd (by simp [Fits, NumsFit, DupFree]) hd
  | .num h => rv_num cfg htl h
  | .str _ => fun hd => absurd (by simp [Fits, NumsFit, DupFree]) hd
  | .arr0 _ => fun hd => absurd (by simp [Fits, NumsFit, NumsFitL, DupFree, DupFreeL]) hd
  | .arr h => rv_arr cfg (pe_of_grammar cfg h) (re_of_grammar cfg htl h)
  | .obj0 _ => fun hd => absurd (by simp [Fits, NumsFit, NumsFitM, DupFree, DupFreeM]) hd
  | .obj h => rv_obj cfg (pm_of_grammar cfg h) (rm_of_grammar cfg htl h)
theorem re_of_grammar (cfg : Cfg) (htl : ∀ n < 2 ^ 64, cfg.tooLong n = false) {t : Bytes} {l : List SJ} (h : JElems False t l) : RE cfg t l :=
  match h with
  | .one hw h hw' => re_one cfg hw hw' (rv_of_grammar cfg htl h)
  | .cons hw h hw' hl => re_cons cfg hw hw' (pv_of_grammar cfg h) (rv_of_grammar cfg htl h) (re_of_grammar cfg htl hl)
theorem rm_of_grammar (cfg : Cfg) (htl : ∀ n < 2 ^ 64, cfg.tooLong n = false) {t : Bytes} {l : List (Bytes × SJ)} (h : JMembs False t l) : RM cfg t l :=
  match h with
  | .one hw hk hw1 hw2 h hw3 => rm_one cfg hw hk hw1 hw2 hw3 (rv_of_grammar cfg htl h)
  | .cons hw hk hw1 hw2 h hw3 hl =>
    rm_cons cfg hw hk hw1 hw2 hw3 (pv_of_grammar cfg h) (rv_of_grammar cfg htl h) (rm_of_grammar cfg htl hl)
end

/-- The parser on a grammatical text outside the limits. -/
theorem parse_reject (cfg : Cfg) (htl : ∀ n < 2 ^ 64, cfg.tooLong n = false) {t : Bytes} {v : SJ} (h : JVal False t v) (hf : ¬ Fits cfg v)
    (w rest : Bytes) (hw : Ws w) (hr : StopNum rest) : parse cfg (w ++ (t ++ rest)) = .err := by
  obtain ⟨F, hF⟩ := rv_of_grammar cfg htl h hf
  refine parse_of_fuel cfg _ F _ ?_ (by simp)
  rw [parseV_ws _ _ _ _ hw, hF F (Nat.le_refl _) rest hr]

end Imt.Parser
