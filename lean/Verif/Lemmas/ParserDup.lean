import Verif.Lemmas.ParserGram
/-! # Duplicate keys, meaning of the result, progress -/
namespace Imt.Parser
open Imt Spec

/-! ## A duplicate key anywhere is an error -/

def QV (cfg : Cfg) (t : Bytes) (v : SJ) : Prop :=
  NumsFit cfg v → ¬ DupFree cfg v → ∃ F, ∀ f, F ≤ f → ∀ rest, StopNum rest → parseV cfg f (t ++ rest) = .err
def QE (cfg : Cfg) (t : Bytes) (l : List SJ) : Prop :=
  NumsFitL cfg l → ¬ DupFreeL cfg l → ∃ F, ∀ f, F ≤ f → ∀ rest, parseItems cfg f (t ++ 0x5D :: rest) = .err
def QM (cfg : Cfg) (t : Bytes) (l : List (Bytes × SJ)) : Prop :=
  NumsFitM cfg l → ¬ DupFreeM cfg l → ∃ F, ∀ f, F ≤ f → ∀ rest,
    parseMembers cfg f (skipWs (t ++ 0x7D :: rest)) = .err

theorem qv_arr (cfg : Cfg) {t : Bytes} {l : List SJ} (p : PE cfg t l) (q : QE cfg t l) :
    QV cfg (0x5B :: (t ++ [0x5D])) (.arr l) := by
  intro hn hd
  obtain ⟨F, hF⟩ := q (by simpa [NumsFit] using hn) (by simpa [DupFree] using hd)
  refine ⟨F + 1, fun f hf1 rest _ => ?_⟩
  obtain ⟨f, rfl⟩ : ∃ g, f = g + 1 := ⟨f - 1, by omega⟩
  obtain ⟨c, r, e, hc⟩ := p.1 (0x5D :: rest)
  have hI := hF f (by omega) rest
  rw [← parseItems_skip, e] at hI
  rw [List.cons_append, parseV_head _ _ _ _ (by decide)]
  simp [e, hc, hI]

theorem finishObj_err (cfg : Cfg) (l : List (Bytes × SJ)) (h1 : cfg.allowDup = false) (h : ¬ (l.map (·.1)).Nodup)
    (r : Bytes) : finishObj cfg (interpM cfg l) r = .err := by
  unfold finishObj
  dsimp only
  rw [if_pos]
  refine ⟨h1, fun he => h ?_⟩
  rw [← interpM_keys cfg]
  exact (Obj.mkObject_length_eq_iff JV.defined false (interpM cfg l)).1 he

theorem qv_obj (cfg : Cfg) {t : Bytes} {l : List (Bytes × SJ)} (p : PM cfg t l) (q : QM cfg t l) :
    QV cfg (0x7B :: (t ++ [0x7D])) (.obj l) := by
  intro hn hd
  have hn' : NumsFitM cfg l := by simpa [NumsFit] using hn
  by_cases hdm : DupFreeM cfg l
  · have hdup : ¬ (cfg.allowDup = false → (l.map (·.1)).Nodup) := by
      intro h
      exact hd (by simp only [DupFree]; exact ⟨hdm, h⟩)
    have h1 : cfg.allowDup = false := Classical.byContradiction fun h => hdup (fun h' => absurd h' h)
    have h2 : ¬ (l.map (·.1)).Nodup := fun h => hdup (fun _ => h)
    obtain ⟨F, hF⟩ := p.2 ⟨hn', hdm⟩
    refine ⟨F + 1, fun f hf1 rest _ => ?_⟩
    obtain ⟨f, rfl⟩ : ∃ g, f = g + 1 := ⟨f - 1, by omega⟩
    obtain ⟨r, e⟩ := p.1 (0x7D :: rest)
    have hM := hF f (by omega) rest
    rw [e] at hM
    rw [List.cons_append, parseV_head _ _ _ _ (by decide)]
    simp [e, hM, finishObj_err cfg l h1 h2]
  · obtain ⟨F, hF⟩ := q hn' hdm
    refine ⟨F + 1, fun f hf1 rest _ => ?_⟩
    obtain ⟨f, rfl⟩ : ∃ g, f = g + 1 := ⟨f - 1, by omega⟩
    obtain ⟨r, e⟩ := p.1 (0x7D :: rest)
    have hM := hF f (by omega) rest
    rw [e] at hM
    rw [List.cons_append, parseV_head _ _ _ _ (by decide)]
    simp [e, hM]

theorem qe_one (cfg : Cfg) {w t w' : Bytes} {v : SJ} (hw : Ws w) (hw' : Ws w') (q : QV cfg t v) :
    QE cfg (w ++ (t ++ w')) [v] := by
  intro hn hd
  obtain ⟨F, hF⟩ := q (by simpa [NumsFitL] using hn) (by simpa [DupFreeL] using hd)
  refine ⟨F + 1, fun f hf1 rest => ?_⟩
  obtain ⟨f, rfl⟩ : ∃ g, f = g + 1 := ⟨f - 1, by omega⟩
  have hV := hF f (by omega) (w' ++ 0x5D :: rest) (stopNum_ws _ _ _ hw' (by simp))
  rw [parseItems]
  simp only [List.append_assoc]
  rw [parseV_ws _ _ _ _ hw, hV]
  rfl

theorem qe_cons (cfg : Cfg) {w t w' t' : Bytes} {v : SJ} {l : List SJ} (hw : Ws w) (hw' : Ws w') (p : PV cfg t v)
    (q : QV cfg t v) (q' : QE cfg t' l) : QE cfg (w ++ (t ++ (w' ++ 0x2C :: t'))) (v :: l) := by
  intro hn hd
  simp only [NumsFitL] at hn
  by_cases hv : DupFree cfg v
  · have hl : ¬ DupFreeL cfg l := fun h => hd (by simp only [DupFreeL]; exact ⟨hv, h⟩)
    obtain ⟨F, hF⟩ := p.2 ⟨hn.1, hv⟩
    obtain ⟨F', hF'⟩ := q' hn.2 hl
    refine ⟨max F F' + 1, fun f hf1 rest => ?_⟩
    obtain ⟨f, rfl⟩ : ∃ g, f = g + 1 := ⟨f - 1, by omega⟩
    have hV := hF f (by omega) (w' ++ 0x2C :: (t' ++ 0x5D :: rest)) (fun _ => stopNum_ws _ _ _ hw' (by simp))
    have hI := hF' f (by omega) rest
    rw [parseItems]
    simp only [List.append_assoc, List.cons_append]
    rw [parseV_ws _ _ _ _ hw, hV]
    simp [skip_sep w' 0x2C _ hw' (by decide), hI]
  · obtain ⟨F, hF⟩ := q hn.1 hv
    refine ⟨F + 1, fun f hf1 rest => ?_⟩
    obtain ⟨f, rfl⟩ : ∃ g, f = g + 1 := ⟨f - 1, by omega⟩
    have hV := hF f (by omega) (w' ++ 0x2C :: (t' ++ 0x5D :: rest)) (stopNum_ws _ _ _ hw' (by simp))
    rw [parseItems]
    simp only [List.append_assoc, List.cons_append]
    rw [parseV_ws _ _ _ _ hw, hV]
    rfl

theorem qm_one (cfg : Cfg) {w k s w1 w2 t w3 : Bytes} {v : SJ} (hw : Ws w) (hk : StrBody False k s) (hw1 : Ws w1)
    (hw2 : Ws w2) (hw3 : Ws w3) (q : QV cfg t v) :
    QM cfg (w ++ (0x22 :: (k ++ (0x22 :: (w1 ++ (0x3A :: (w2 ++ (t ++ w3)))))))) [(s, v)] := by
  intro hn hd
  obtain ⟨F, hF⟩ := q (by simpa [NumsFitM] using hn) (by simpa [DupFreeM] using hd)
  refine ⟨F + 1, fun f hf1 rest => ?_⟩
  obtain ⟨f, rfl⟩ : ∃ g, f = g + 1 := ⟨f - 1, by omega⟩
  have hV := hF f (by omega) (w3 ++ 0x7D :: rest) (stopNum_ws _ _ _ hw3 (by simp))
  rw [List.append_assoc, List.cons_append, skip_sep _ _ _ hw (by decide)]
  simp only [List.append_assoc, List.cons_append]
  rw [parseMembers, if_pos rfl, readStr_body cfg hk]
  simp only [Res.bind_ok]
  rw [skip_sep _ _ _ hw1 (by decide)]
  dsimp only
  rw [if_pos rfl, parseV_ws _ _ _ _ hw2, hV]
  rfl

theorem qm_cons (cfg : Cfg) {w k s w1 w2 t w3 t' : Bytes} {v : SJ} {l : List (Bytes × SJ)} (hw : Ws w)
    (hk : StrBody False k s) (hw1 : Ws w1) (hw2 : Ws w2) (hw3 : Ws w3) (p : PV cfg t v) (q : QV cfg t v)
    (q' : QM cfg t' l) :
    QM cfg (w ++ (0x22 :: (k ++ (0x22 :: (w1 ++ (0x3A :: (w2 ++ (t ++ (w3 ++ 0x2C :: t'))))))))) ((s, v) :: l) := by
  intro hn hd
  simp only [NumsFitM] at hn
  have main : ∀ f rest, parseMembers cfg (f + 1) (skipWs ((w ++ (0x22 :: (k ++ (0x22 :: (w1 ++ (0x3A :: (w2 ++ (t ++
      (w3 ++ 0x2C :: t'))))))))) ++ 0x7D :: rest)) = (do
        let v ← parseV cfg f (t ++ (w3 ++ 0x2C :: (t' ++ 0x7D :: rest)))
        match skipWs v.2 with
        | [] => .err
        | c2 :: r4 =>
          if c2 = 0x7D then pure ([(s, v.1)], r4)
          else if c2 = 0x2C then do
            let m ← parseMembers cfg f (skipWs r4)
            pure ((s, v.1) :: m.1, m.2)
          else .err) := by
    intro f rest
    rw [List.append_assoc, List.cons_append, skip_sep _ _ _ hw (by decide)]
    simp only [List.append_assoc, List.cons_append]
    rw [parseMembers, if_pos rfl, readStr_body cfg hk]
    simp only [Res.bind_ok]
    rw [skip_sep _ _ _ hw1 (by decide)]
    dsimp only
    rw [if_pos rfl, parseV_ws _ _ _ _ hw2]
    rfl
  by_cases hv : DupFree cfg v
  · have hl : ¬ DupFreeM cfg l := fun h => hd (by simp only [DupFreeM]; exact ⟨hv, h⟩)
    obtain ⟨F, hF⟩ := p.2 ⟨hn.1, hv⟩
    obtain ⟨F', hF'⟩ := q' hn.2 hl
    refine ⟨max F F' + 1, fun f hf1 rest => ?_⟩
    obtain ⟨f, rfl⟩ : ∃ g, f = g + 1 := ⟨f - 1, by omega⟩
    have hV := hF f (by omega) (w3 ++ 0x2C :: (t' ++ 0x7D :: rest)) (fun _ => stopNum_ws _ _ _ hw3 (by simp))
    have hM := hF' f (by omega) rest
    rw [main, hV]
    simp [skip_sep w3 0x2C _ hw3 (by decide), hM]
  · obtain ⟨F, hF⟩ := q hn.1 hv
    refine ⟨F + 1, fun f hf1 rest => ?_⟩
    obtain ⟨f, rfl⟩ : ∃ g, f = g + 1 := ⟨f - 1, by omega⟩
    have hV := hF f (by omega) (w3 ++ 0x2C :: (t' ++ 0x7D :: rest)) (stopNum_ws _ _ _ hw3 (by simp))
    rw [main, hV]
    rfl

mutual
theorem qv_of_grammar (cfg : Cfg) {t : Bytes} {v : SJ} (h : JVal False t v) : QV cfg t v :=
  match h with
  | .null => fun _ hd => absurd (by simp [DupFree]) hd
  | .true => fun _ hd => absurd (by simp [DupFree]) hd
  | .false => fun _ hd => absurd (by simp [DupFree]) hd
  | .num _ => fun _ hd => absurd (by simp [DupFree]) hd
  | .str _ => fun _ hd => absurd (by simp [DupFree]) hd
  | .arr0 _ => fun _ hd => absurd (by simp [DupFree, DupFreeL]) hd
  | .arr h => qv_arr cfg (pe_of_grammar cfg h) (qe_of_grammar cfg h)
  | .obj0 _ => fun _ hd => absurd (by simp [DupFree, DupFreeM]) hd
  | .obj h => qv_obj cfg (pm_of_grammar cfg h) (qm_of_grammar cfg h)
theorem qe_of_grammar (cfg : Cfg) {t : Bytes} {l : List SJ} (h : JElems False t l) : QE cfg t l :=
  match h with
  | .one hw h hw' => qe_one cfg hw hw' (qv_of_grammar cfg h)
  | .cons hw h hw' hl => qe_cons cfg hw hw' (pv_of_grammar cfg h) (qv_of_grammar cfg h) (qe_of_grammar cfg hl)
theorem qm_of_grammar (cfg : Cfg) {t : Bytes} {l : List (Bytes × SJ)} (h : JMembs False t l) : QM cfg t l :=
  match h with
  | .one hw hk hw1 hw2 h hw3 => qm_one cfg hw hk hw1 hw2 hw3 (qv_of_grammar cfg h)
  | .cons hw hk hw1 hw2 h hw3 hl =>
    qm_cons cfg hw hk hw1 hw2 hw3 (pv_of_grammar cfg h) (qv_of_grammar cfg h) (qm_of_grammar cfg hl)
end

theorem parse_dup (cfg : Cfg) {t : Bytes} {v : SJ} (h : JVal False t v) (hf : NumsFit cfg v) (hd : ¬ DupFree cfg v)
    (w rest : Bytes) (hw : Ws w) (hr : StopNum rest) : parse cfg (w ++ (t ++ rest)) = .err := by
  obtain ⟨F, hF⟩ := qv_of_grammar cfg h hf hd
  refine parse_of_fuel cfg _ F _ ?_ (by simp)
  rw [parseV_ws _ _ _ _ hw, hF F (Nat.le_refl _) rest hr]

/-! ## The result means what the text says -/

theorem numberFromStringRaw_prec (s : Bytes) (b : Bool) : ∃ cls, numberFromStringRaw s b = .prec s cls := by
  unfold numberFromStringRaw
  split
  · exact ⟨_, rfl⟩
  · dsimp only
    split
    · exact ⟨_, rfl⟩
    · split
      · split
        · exact ⟨_, rfl⟩
        · exact ⟨_, rfl⟩
      · exact ⟨_, rfl⟩

mutual
theorem interpV_means (cfg : Cfg) : (v : SJ) → NoInf v → Means cfg v (interpV cfg v)
  | .null, _ => by rw [interpV]; exact .null
  | .bool _, _ => by rw [interpV]; exact .bool
  | .num t, _ => by
    rw [interpV]
    split
    · rename_i h
      obtain ⟨cls, e⟩ := numberFromStringRaw_prec t.text (decide (¬ (t.frac = none ∧ t.exp = none)))
      rw [e]
      exact .prec h
    · rename_i h
      exact .num (by simpa using h)
  | .str s, h => by
    simp only [NoInf] at h
    rw [interpV, stringValue, if_neg h.1, if_neg h.2]
    exact .str
  | .arr l, h => by
    simp only [NoInf] at h
    rw [interpV]
    exact .arr (interpL_means cfg l h)
  | .obj l, h => by
    simp only [NoInf] at h
    rw [interpV]
    refine .obj (interpM_means cfg l h) (Obj.mkObject_sorted _ _ _) (fun k => ?_)
    rw [Obj.lookup_eq_lastVal (Obj.mkObject_sorted _ _ _), Obj.mkObject_lastVal]
    rfl
theorem interpL_means (cfg : Cfg) : (l : List SJ) → NoInfL l → MeansL cfg l (interpL cfg l)
  | [], _ => by rw [interpL]; exact .nil
  | v :: l, h => by
    simp only [NoInfL] at h
    rw [interpL]
    exact .cons (interpV_means cfg v h.1) (interpL_means cfg l h.2)
theorem interpM_means (cfg : Cfg) : (l : List (Bytes × SJ)) → NoInfM l → MeansM cfg l (interpM cfg l)
  | [], _ => by rw [interpM]; exact .nil
  | (k, v) :: l, h => by
    simp only [NoInfM] at h
    rw [interpM]
    exact .cons (interpV_means cfg v h.1) (interpM_means cfg l h.2)
end

/-! ## Progress -/

theorem isDigit_unsigned {c : Nat} (cs : Bytes) (h : isDigit c = true) :
    (parseUnsigned 0 (c :: cs)).2.2 <:+ cs := by
  rw [parseUnsigned, if_pos h, if_neg (by decide)]
  dsimp only
  rw [if_neg (by omega)]
  exact parseUnsigned_suffix _ _

theorem parseNumber_progress (cfg : Cfg) (s : Bytes) (v : JV) (r : Bytes) (h : parseNumber cfg s = .ok (v, r)) :
    r.length < s.length := by
  unfold parseNumber at h
  split at h
  · -- precise
    cases hp : parsePrecise s with
    | ok p =>
      rw [hp] at h
      simp only [Res.bind_ok, Res.pure_eq, Res.ok.injEq, Prod.mk.injEq] at h
      obtain ⟨-, rfl⟩ := h
      unfold parsePrecise at hp
      dsimp only at hp
      have h1 := (takeSign_suffix s).length_le
      have h2 := spanDigits_append (takeSign s).2
      split at hp
      · cases hp
      · rename_i hne
        have hpos : 0 < (spanDigits (takeSign s).2).1.length := List.length_pos_iff.2 hne
        have h3 := congrArg List.length h2
        simp only [List.length_append] at h3
        have h4 := (takeFrac_suffix (spanDigits (takeSign s).2).2).length_le
        split at hp
        · cases hp; simp only [List.length_nil]; omega
        · rename_i c cs he
          rw [he] at h4
          simp only [List.length_cons] at h4
          split at hp
          · split at hp
            · cases hp
            · cases hp
              have h5 := (spanDigits_suffix (takeSign cs).2).length_le
              have h6 := (takeSign_suffix cs).length_le
              dsimp only
              omega
          · cases hp; simp only [List.length_cons]; omega
    | _ => rw [hp] at h; simp at h
  · dsimp only at h
    have h1 := readSign_suffix s
    split at h
    · cases h
    · rename_i c cs he
      rw [he] at h1
      have h1l := suffix_len_lt h1
      split at h
      · rename_i hc
        by_cases hd : isDigit c = true
        · have hu := (isDigit_unsigned cs hd).length_le
          split at h
          · have hg := parseDouble_good cfg (parseUnsigned 0 (c :: cs)).2.1 (readSign s).1 (parseUnsigned 0 (c :: cs)).2.2
            rw [h] at hg
            have := hg.length_le
            dsimp only at this
            omega
          · split at h
            · split at h
              · cases h; omega
              · cases h; omega
            · cases h; omega
        · have hdot : c = 0x2E := by
            rcases hc with hc | hc
            · exact absurd hc hd
            · exact hc
          subst hdot
          have hu : parseUnsigned 0 (0x2E :: cs) = (true, 0, 0x2E :: cs) := by
            rw [parseUnsigned, if_neg (by decide)]
          rw [hu] at h
          dsimp only at h
          rw [if_pos (by simp)] at h
          unfold parseDouble at h
          have hdv : digitsVal 0 0 (0x2E :: cs) = (0, 0, 0x2E :: cs) := by
            rw [digitsVal, if_neg (by decide)]
          rw [hdv] at h
          dsimp only at h
          rw [if_neg (by simp)] at h
          rw [parseFrac.eq_def] at h
          dsimp only at h
          rw [if_pos rfl] at h
          split at h
          · cases h
          · rename_i d ds
            split at h
            · simp only [Res.bind_ok] at h
              have hs := digitsVal_suffix 0 0 (d :: ds)
              have hg := parseExp_good (digitsVal 0 0 (d :: ds)).2.2
              cases hx : parseExp (digitsVal 0 0 (d :: ds)).2.2 with
              | ok e =>
                rw [hx] at h hg
                simp only [Res.bind_ok, Res.pure_eq, Res.ok.injEq, Prod.mk.injEq] at h
                obtain ⟨-, rfl⟩ := h
                have := (hg.trans hs).length_le
                omega
              | _ => rw [hx] at h; simp at h
            · cases h
      · cases h

theorem kw_progress {α : Type} (k : Bytes) (c : Nat) (s : Bytes) (v : α) (a : α) (r : Bytes)
    (h : (checkKw (c :: k) s >>= fun t => pure (v, t)) = .ok (a, r)) : r.length < s.length := by
  cases s with
  | nil => simp [checkKw] at h
  | cons d s =>
    rw [checkKw] at h
    split at h
    · have hg := checkKw_good k s
      cases hx : checkKw k s with
      | ok e =>
        rw [hx] at h hg
        simp only [Res.bind_ok, Res.pure_eq, Res.ok.injEq, Prod.mk.injEq] at h
        obtain ⟨-, rfl⟩ := h
        have := List.IsSuffix.length_le hg
        simp only [id_eq] at this
        simp only [List.length_cons]
        omega
      | _ => rw [hx] at h; simp at h
    · cases h

theorem bind_ok_inv {α β : Type} {x : Res α} {f : α → Res β} {b : β} (h : (x >>= f) = .ok b) :
    ∃ a, x = .ok a ∧ f a = .ok b := by
  cases x with
  | ok a => exact ⟨a, rfl, h⟩
  | _ => simp at h

theorem parse_progress (cfg : Cfg) (s : Bytes) (v : JV) (r : Bytes) (h : parse cfg s = .ok (v, r)) :
    r.length < s.length := by
  unfold parse at h
  rw [parseV.eq_def] at h
  dsimp only at h
  have hw := skipWs_suffix s
  have hwl := hw.length_le
  split at h
  · cases h
  · rename_i c r0 he
    rw [he] at hw hwl
    simp only [List.length_cons] at hwl
    have hw2 := skipWs_suffix r0
    have hw2l := hw2.length_le
    split at h
    · split at h
      · cases h
      · rename_i c' r' he'
        rw [he'] at hw2l
        split at h
        · cases h; simp only [List.length_cons] at hw2l; omega
        · obtain ⟨m, hm, hfin⟩ := bind_ok_inv h
          have hg := (parse_good cfg (2 * s.length)).2.1 (c' :: r') (by omega)
          rw [hm] at hg
          have h1 := hg.length_le
          have h2 := finishObj_good cfg m.1 m.2
          rw [hfin] at h2
          have := h2.length_le
          dsimp only at this
          omega
    · split at h
      · split at h
        · cases h
        · rename_i c' r' he'
          rw [he'] at hw2l
          split at h
          · cases h; simp only [List.length_cons] at hw2l; omega
          · obtain ⟨m, hm, hfin⟩ := bind_ok_inv h
            have hg := (parse_good cfg (2 * s.length)).2.2 (c' :: r') (by omega)
            rw [hm] at hg
            have h1 := hg.length_le
            cases hfin
            omega
      · split at h
        · obtain ⟨m, hm, hfin⟩ := bind_ok_inv h
          have hg := readStr_good cfg r0 Utf8.Dec.init
          rw [hm] at hg
          have h1 := hg.length_le
          cases hfin
          omega
        · split at h
          · have := kw_progress (ascii "rue") 0x74 _ _ _ _ h
            simp only [List.length_cons] at this; omega
          · split at h
            · have := kw_progress (ascii "alse") 0x66 _ _ _ _ h
              simp only [List.length_cons] at this; omega
            · split at h
              · have := kw_progress (ascii "ull") 0x6E _ _ _ _ h
                simp only [List.length_cons] at this; omega
              · split at h
                · have := parseNumber_progress cfg _ _ _ h
                  simp only [List.length_cons] at this; omega
                · cases h

end Imt.Parser
