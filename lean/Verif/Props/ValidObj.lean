import Verif.Props.Validator
import Mathlib.Data.List.Basic
/-!
# C55: the validation of objects
-/
namespace Imt.Props
open Imt Imt.Eq Imt.Valid

/-- The key that a key of a template stands for: keys made of percent signs lose one. -/
def plainKey (k : Bytes) : Bytes := if ∀ c ∈ k, c = 37 then k.tail else k

/-- The key of the rule for other members. -/
def pctKey : Bytes := [37]

/-- The documented meaning of a template: a member matches the rule of its key, a member without a rule of its own
matches the rule of `%`, a missing key matches as undefined. -/
def ObjAccept (acc : EV → EV → Bool) (wild : EV) (S T : List EV) : Prop :=
  (∀ s ∈ S, ∀ t ∈ T, t.key ≠ pctKey → plainKey t.key = s.key → acc s t = true) ∧
  (∀ s ∈ S, (∀ t ∈ T, t.key ≠ pctKey → plainKey t.key ≠ s.key) → acc s wild = true) ∧
  (∀ t ∈ T, t.key ≠ pctKey → (∀ s ∈ S, s.key ≠ plainKey t.key) → acc undefV t = true)

/-- The pure function computed by the loops. -/
def mergeB (acc : EV → EV → Bool) (wild : EV) : Nat → List EV → List EV → Bool
  | 0, _, _ => false
  | n + 1, s :: ss, t :: ts =>
    if t.key = pctKey then
      (if s.key = [] then mergeB acc wild n ss ts else mergeB acc wild n (s :: ss) ts)
    else if ltBytes s.key (plainKey t.key) then acc s wild && mergeB acc wild n ss (t :: ts)
    else if ltBytes (plainKey t.key) s.key then acc undefV t && mergeB acc wild n (s :: ss) ts
    else acc s t && mergeB acc wild n ss ts
  | _ + 1, ss, [] => ss.all fun s => acc s wild
  | _ + 1, [], ts => ts.all fun t => acc undefV t

theorem parseKey_pct : parseKey pctKey = ([], true) := rfl

theorem parseKey_plain {k : Bytes} (h : k ≠ pctKey) : parseKey k = (plainKey k, false) := by
  unfold parseKey
  rw [if_neg (show ¬ k = [37] from h)]
  unfold plainKey
  by_cases hk : ∀ c ∈ k, c = 37
  · rw [if_pos (by simpa using hk), if_pos hk]; cases k <;> rfl
  · rw [if_neg (by simpa using hk), if_neg hk]

theorem ltBytes_nil (k : Bytes) : ltBytes k [] = false := by cases k <;> rfl
theorem nil_ltBytes {k : Bytes} (h : k ≠ []) : ltBytes [] k = true := by
  cases k with
  | nil => exact absurd rfl h
  | cons => rfl

/-- What is assumed of the evaluation of members: the variables determine the outcome and come back. -/
def EvIs (ev : Ev) (acc : EV → EV → Bool) (V : List EV) (A B : List EV) : Prop :=
  ∀ s ∈ A, ∀ t ∈ B, ∀ p st, st.vars = V → ∃ st', ev s t p st = (.ok (acc s t), st') ∧ st'.vars = V

theorem addRej_ok (env : Valid.Env) (p : Valid.Path) (r : EV) (st : St) :
    ∃ st', addRej env p r st = (.ok (), st') ∧ st'.vars = st.vars := by
  have hd : ∀ q st, ∃ st', addRejDef env p q st = (.ok (), st') ∧ st'.vars = st.vars := by
    intro q st
    unfold addRejDef
    split_ifs <;> exact ⟨_, rfl, rfl⟩
  unfold addRej
  split
  · obtain ⟨st', h1, h2⟩ := hd (.node st.next [] false (.str (ascii "undefined") false) []) { st with next := st.next + 1 }
    exact ⟨st', by rw [bind_def]; exact h1, h2⟩
  · exact hd _ _

theorem memberEval_is {env : Valid.Env} {ev : Ev} {V : List EV} {s t : EV} {k : Bytes} {p : Valid.Path}
    {cont : M Bool} {a b : Bool}
    (h1 : ∀ p st, st.vars = V → ∃ st', ev s t p st = (.ok a, st') ∧ st'.vars = V)
    (h2 : ∀ st, st.vars = V → ∃ st', cont st = (.ok b, st') ∧ st'.vars = V) (st : St) (hst : st.vars = V) :
    ∃ st', memberEval env ev s t k p cont st = (.ok (a && b), st') ∧ st'.vars = V := by
  obtain ⟨st1, e1, v1⟩ := h1 (p ++ [.key k]) st hst
  unfold memberEval
  rw [bind_def, e1]
  cases a with
  | true =>
    obtain ⟨st2, e2, v2⟩ := h2 st1 v1
    exact ⟨st2, by simpa using e2, v2⟩
  | false =>
    obtain ⟨st2, e2, v2⟩ := addRej_ok env (p ++ [.key k]) t st1
    refine ⟨st2, ?_, v2.trans v1⟩
    simp [e2]

theorem objRestS_is {env : Valid.Env} {ev : Ev} {acc : EV → EV → Bool} {V : List EV} {wild : EV} {p : Valid.Path} (ss : List EV)
    (h : EvIs ev acc V ss [wild]) (st : St) (hst : st.vars = V) :
    ∃ st', objRestS env ev wild p ss st = (.ok (ss.all fun s => acc s wild), st') ∧ st'.vars = V := by
  induction ss generalizing st with
  | nil => exact ⟨st, rfl, hst⟩
  | cons s ss ih =>
    rw [List.all_cons]
    exact memberEval_is (h s (by simp) wild (by simp))
      (fun st hst => ih (fun x hx => h x (by simp [hx])) st hst) st hst

theorem objRestT_is {env : Valid.Env} {ev : Ev} {acc : EV → EV → Bool} {V : List EV} {p : Valid.Path} (ts : List EV)
    (h : EvIs ev acc V [undefV] ts) (st : St) (hst : st.vars = V) :
    ∃ st', objRestT env ev p ts st = (.ok (ts.all fun t => acc undefV t), st') ∧ st'.vars = V := by
  induction ts generalizing st with
  | nil => exact ⟨st, rfl, hst⟩
  | cons t ts ih =>
    rw [List.all_cons]
    exact memberEval_is (h undefV (by simp) t (by simp))
      (fun st hst => ih (fun x hx y hy => h x hx y (by simp [hy])) st hst) st hst

theorem objLoop_is {env : Valid.Env} {ev : Ev} {acc : EV → EV → Bool} {V : List EV} {wild : EV} {p : Valid.Path} (n : Nat) (ss ts : List EV)
    (hn : ss.length + ts.length < n)
    (h : EvIs ev acc V (undefV :: ss) (wild :: ts)) (st : St) (hst : st.vars = V) :
    ∃ st', objLoop env ev wild p n ss ts st = (.ok (mergeB acc wild n ss ts), st') ∧ st'.vars = V := by
  induction n generalizing ss ts st with
  | zero => omega
  | succ n ih =>
    match ss, ts with
    | [], [] => exact ⟨st, rfl, hst⟩
    | s :: ss, [] =>
      have := objRestS_is (env := env) (wild := wild) (p := p) (s :: ss) (fun x hx y hy => h x (List.mem_cons_of_mem _ hx) y hy) st hst
      exact this
    | [], t :: ts =>
      have := objRestT_is (env := env) (p := p) (t :: ts) (fun x hx y hy => h x hx y (List.mem_cons_of_mem _ hy)) st hst
      exact this
    | s :: ss, t :: ts =>
      simp only [List.length_cons] at hn
      have i1 : ∀ st, st.vars = V → ∃ st', objLoop env ev wild p n ss (t :: ts) st = (.ok (mergeB acc wild n ss (t :: ts)), st') ∧ st'.vars = V :=
        fun st hst => ih ss (t :: ts) (by simp only [List.length_cons]; omega) (fun x hx y hy => h x (by simp at hx ⊢; tauto) y hy) st hst
      have i2 : ∀ st, st.vars = V → ∃ st', objLoop env ev wild p n (s :: ss) ts st = (.ok (mergeB acc wild n (s :: ss) ts), st') ∧ st'.vars = V :=
        fun st hst => ih (s :: ss) ts (by simp only [List.length_cons]; omega) (fun x hx y hy => h x hx y (by simp at hy ⊢; tauto)) st hst
      have i3 : ∀ st, st.vars = V → ∃ st', objLoop env ev wild p n ss ts st = (.ok (mergeB acc wild n ss ts), st') ∧ st'.vars = V :=
        fun st hst => ih ss ts (by omega) (fun x hx y hy => h x (by simp at hx ⊢; tauto) y (by simp at hy ⊢; tauto)) st hst
      unfold objLoop mergeB
      by_cases hp : t.key = pctKey
      · rw [hp, parseKey_pct, if_pos rfl]
        simp only [ltBytes_nil, Bool.false_eq_true, if_false]
        by_cases hs : s.key = []
        · rw [hs]
          simp only [ltBytes_nil, Bool.false_eq_true, if_false, if_true]
          exact i3 st hst
        · simp only [nil_ltBytes hs, if_true, if_neg hs]
          exact i2 st hst
      · rw [parseKey_plain hp, if_neg hp]
        simp only [Bool.false_eq_true, if_false]
        split
        · exact memberEval_is (h s (by simp) wild (by simp)) i1 st hst
        · split
          · exact memberEval_is (h undefV (by simp) t (by simp)) i2 st hst
          · exact memberEval_is (h s (by simp) t (by simp)) i3 st hst

/-- The rules before `%`. -/
def beforePct : List EV → List EV
  | [] => []
  | t :: ts => if t.key = pctKey then [] else t :: beforePct ts

/-- The rule `%` is passed over: the subject has a member behind all rules that come before `%`. -/
def Passed (S T : List EV) : Prop := ∃ s ∈ S, ∀ t ∈ beforePct T, ltBytes (plainKey t.key) s.key = true

theorem beforePct_sub {t : EV} {T : List EV} (h : t ∈ beforePct T) : t ∈ T ∧ t.key ≠ pctKey := by
  induction T with
  | nil => simp [beforePct] at h
  | cons a T ih =>
    unfold beforePct at h
    split at h
    · simp at h
    · rcases List.mem_cons.1 h with rfl | h
      · exact ⟨by simp, by assumption⟩
      · exact ⟨by simp [(ih h).1], (ih h).2⟩

/-- Keys in order, without the rule `%`. -/
def TOrd (T : List EV) : Prop :=
  T.Pairwise fun a b => (a.key ≠ pctKey → b.key ≠ pctKey → ltBytes (plainKey a.key) (plainKey b.key) = true) ∧
    (a.key = pctKey → b.key ≠ pctKey)

theorem ltBytes_ne {a b : Bytes} (h : ltBytes a b = true) : a ≠ b := by
  rintro rfl; rw [ltBytes_irrefl] at h; simp at h

theorem mergeB_spec {acc : EV → EV → Bool} {wild : EV} (n : Nat) (S T : List EV) (hn : S.length + T.length < n)
    (hS : S.Pairwise fun a b => ltBytes a.key b.key = true) (hT : TOrd T)
    (hE : (∃ t ∈ T, t.key = pctKey) → ∀ s ∈ S, s.key = [] → ∃ t ∈ beforePct T, plainKey t.key = []) :
    mergeB acc wild n S T = true ↔ ObjAccept acc wild S T ∧ ∀ t ∈ T, t.key = pctKey → Passed S T ∨ acc undefV t = true := by
  induction n generalizing S T with
  | zero => omega
  | succ n ih =>
    match S, T with
    | [], [] => simp [mergeB, ObjAccept]
    | s :: ss, [] => simp [mergeB, ObjAccept]
    | [], t :: ts =>
      unfold mergeB
      simp only [List.all_eq_true, ObjAccept, List.not_mem_nil, false_implies, implies_true, true_and, Passed,
        false_and, exists_false, false_or, forall_const]
      constructor
      · exact fun h => ⟨fun x hx _ => h x hx, fun x hx _ => h x hx⟩
      · intro h x hx
        by_cases hp : x.key = pctKey
        · exact h.2 x hx hp
        · exact h.1 x hx hp
    | s :: ss, t :: ts =>
      simp only [List.length_cons] at hn
      have hS' := hS
      have hT' := hT
      rw [List.pairwise_cons] at hS
      unfold TOrd at hT
      rw [List.pairwise_cons] at hT
      have hne : ∀ x ∈ ss, x.key ≠ [] := by
        intro x hx e
        have := hS.1 x hx
        rw [e, ltBytes_nil] at this
        simp at this
      unfold mergeB
      by_cases hp : t.key = pctKey
      · rw [if_pos hp]
        have hs : s.key ≠ [] := by
          intro e
          obtain ⟨x, hx, _⟩ := hE ⟨t, by simp, hp⟩ s (by simp) e
          simp [beforePct, hp] at hx
        rw [if_neg hs]
        have hnp : ∀ x ∈ ts, x.key ≠ pctKey := fun x hx => (hT.1 x hx).2 hp
        rw [ih (s :: ss) ts (by simp only [List.length_cons]; omega) hS' hT.2
          (fun ⟨x, hx, e⟩ => absurd e (hnp x hx))]
        have hpass : Passed (s :: ss) (t :: ts) := ⟨s, by simp, by simp [beforePct, hp]⟩
        constructor
        · rintro ⟨⟨h1, h2, h3⟩, -⟩
          refine ⟨⟨fun a ha b hb hb' => ?_, fun a ha hall => ?_, fun b hb hb' => ?_⟩, fun _ _ _ => Or.inl hpass⟩
          · rcases List.mem_cons.1 hb with rfl | hb
            · exact absurd hp hb'
            · exact h1 a ha b hb hb'
          · exact h2 a ha fun x hx => hall x (by simp [hx])
          · rcases List.mem_cons.1 hb with rfl | hb
            · exact absurd hp hb'
            · exact h3 b hb hb'
        · rintro ⟨⟨h1, h2, h3⟩, -⟩
          refine ⟨⟨fun a ha b hb => h1 a ha b (by simp [hb]), fun a ha hall => h2 a ha fun x hx hx' => ?_,
            fun b hb => h3 b (by simp [hb])⟩, fun x hx e => absurd e (hnp x hx)⟩
          rcases List.mem_cons.1 hx with rfl | hx
          · exact absurd hp hx'
          · exact hall x hx hx'
      · rw [if_neg hp]
        have hbp : beforePct (t :: ts) = t :: beforePct ts := by simp [beforePct, hp]
        have htl : ∀ x ∈ ts, x.key ≠ pctKey → ltBytes (plainKey t.key) (plainKey x.key) = true :=
          fun x hx hx' => (hT.1 x hx).1 hp hx'
        by_cases h1 : ltBytes s.key (plainKey t.key) = true
        · rw [if_pos h1, Bool.and_eq_true, ih ss (t :: ts) (by simp only [List.length_cons]; omega) hS.2 hT'
            (fun _ x hx e => absurd e (hne x hx))]
          have hno : ∀ x ∈ t :: ts, x.key ≠ pctKey → plainKey x.key ≠ s.key := by
            intro x hx hx'
            rcases List.mem_cons.1 hx with rfl | hx
            · exact (ltBytes_ne h1).symm
            · exact (ltBytes_ne (ltBytes_trans h1 (htl x hx hx'))).symm
          have hpass : Passed (s :: ss) (t :: ts) ↔ Passed ss (t :: ts) := by
            unfold Passed
            constructor
            · rintro ⟨x, hx, hx'⟩
              rcases List.mem_cons.1 hx with rfl | hx
              · have := hx' t (by simp [hbp])
                rw [ltBytes_asymm h1] at this
                simp at this
              · exact ⟨x, hx, hx'⟩
            · rintro ⟨x, hx, hx'⟩
              exact ⟨x, by simp [hx], hx'⟩
          rw [hpass]
          constructor
          · rintro ⟨ha, ⟨g1, g2, g3⟩, g4⟩
            refine ⟨⟨fun a ha' b hb hb' e => ?_, fun a ha' hall => ?_, fun b hb hb' hall => ?_⟩, g4⟩
            · rcases List.mem_cons.1 ha' with rfl | ha'
              · exact absurd e (hno b hb hb')
              · exact g1 a ha' b hb hb' e
            · rcases List.mem_cons.1 ha' with rfl | ha'
              · exact ha
              · exact g2 a ha' hall
            · exact g3 b hb hb' fun x hx => hall x (by simp [hx])
          · rintro ⟨⟨g1, g2, g3⟩, g4⟩
            refine ⟨g2 s (by simp) hno, ⟨fun a ha => g1 a (by simp [ha]), fun a ha => g2 a (by simp [ha]),
              fun b hb hb' hall => g3 b hb hb' fun x hx => ?_⟩, g4⟩
            rcases List.mem_cons.1 hx with rfl | hx
            · exact (hno b hb hb').symm
            · exact hall x hx
        · rw [if_neg h1]
          by_cases h2 : ltBytes (plainKey t.key) s.key = true
          · have hs : s.key ≠ [] := by intro e; rw [e, ltBytes_nil] at h2; simp at h2
            have hgt : ∀ x ∈ s :: ss, ltBytes (plainKey t.key) x.key = true := by
              intro x hx
              rcases List.mem_cons.1 hx with rfl | hx
              · exact h2
              · exact ltBytes_trans h2 (hS.1 x hx)
            rw [if_pos h2, Bool.and_eq_true, ih (s :: ss) ts (by simp only [List.length_cons]; omega) hS' hT.2
              (by
                intro _ x hx e
                rcases List.mem_cons.1 hx with rfl | hx
                · exact absurd e hs
                · exact absurd e (hne x hx))]
            have hpass : Passed (s :: ss) (t :: ts) ↔ Passed (s :: ss) ts := by
              unfold Passed
              rw [hbp]
              constructor
              · rintro ⟨x, hx, hx'⟩
                exact ⟨x, hx, fun y hy => hx' y (by simp [hy])⟩
              · rintro ⟨x, hx, hx'⟩
                refine ⟨x, hx, fun y hy => ?_⟩
                rcases List.mem_cons.1 hy with rfl | hy
                · exact hgt x hx
                · exact hx' y hy
            rw [hpass]
            constructor
            · rintro ⟨ha, ⟨g1, g2, g3⟩, g4⟩
              refine ⟨⟨fun a ha' b hb hb' e => ?_, fun a ha' hall => g2 a ha' fun x hx => hall x (by simp [hx]), fun b hb hb' hall => ?_⟩, fun b hb e => ?_⟩
              · rcases List.mem_cons.1 hb with rfl | hb
                · exact absurd e (ltBytes_ne (hgt a ha'))
                · exact g1 a ha' b hb hb' e
              · rcases List.mem_cons.1 hb with rfl | hb
                · exact ha
                · exact g3 b hb hb' hall
              · rcases List.mem_cons.1 hb with rfl | hb
                · exact absurd e hp
                · exact g4 b hb e
            · rintro ⟨⟨g1, g2, g3⟩, g4⟩
              refine ⟨g3 t (by simp) hp fun x hx => (ltBytes_ne (hgt x hx)).symm, ⟨fun a ha b hb => g1 a ha b (by simp [hb]),
                fun a ha hall => g2 a ha fun x hx hx' => ?_, fun b hb => g3 b (by simp [hb])⟩, fun b hb => g4 b (by simp [hb])⟩
              rcases List.mem_cons.1 hx with rfl | hx
              · exact ltBytes_ne (hgt a ha)
              · exact hall x hx hx'
          · rw [if_neg h2]
            have heq : s.key = plainKey t.key := by
              rcases ltBytes_tri s.key (plainKey t.key) with h | h | h
              · exact absurd h h1
              · exact h
              · exact absurd h h2
            have hgt : ∀ x ∈ ss, ltBytes (plainKey t.key) x.key = true := by
              intro x hx; rw [← heq]; exact hS.1 x hx
            have hlt : ∀ x ∈ ts, x.key ≠ pctKey → ltBytes s.key (plainKey x.key) = true := by
              intro x hx hx'; rw [heq]; exact htl x hx hx'
            rw [Bool.and_eq_true, ih ss ts (by omega) hS.2 hT.2
              (fun _ x hx e => absurd e (hne x hx))]
            have hpass : Passed (s :: ss) (t :: ts) ↔ Passed ss ts := by
              unfold Passed
              rw [hbp]
              constructor
              · rintro ⟨x, hx, hx'⟩
                rcases List.mem_cons.1 hx with rfl | hx
                · have := hx' t (by simp)
                  exact absurd this h2
                · exact ⟨x, hx, fun y hy => hx' y (by simp [hy])⟩
              · rintro ⟨x, hx, hx'⟩
                refine ⟨x, by simp [hx], fun y hy => ?_⟩
                rcases List.mem_cons.1 hy with rfl | hy
                · exact hgt x hx
                · exact hx' y hy
            rw [hpass]
            constructor
            · rintro ⟨ha, ⟨g1, g2, g3⟩, g4⟩
              refine ⟨⟨fun a ha' b hb hb' e => ?_, fun a ha' hall => ?_, fun b hb hb' hall => ?_⟩, fun b hb e => ?_⟩
              · rcases List.mem_cons.1 ha' with rfl | ha'
                · rcases List.mem_cons.1 hb with rfl | hb
                  · exact ha
                  · exact absurd e.symm (ltBytes_ne (hlt b hb hb'))
                · rcases List.mem_cons.1 hb with rfl | hb
                  · exact absurd e (ltBytes_ne (hgt a ha'))
                  · exact g1 a ha' b hb hb' e
              · rcases List.mem_cons.1 ha' with rfl | ha'
                · exact absurd heq.symm (hall t (by simp) hp)
                · exact g2 a ha' fun x hx => hall x (by simp [hx])
              · rcases List.mem_cons.1 hb with rfl | hb
                · exact absurd heq (hall s (by simp))
                · exact g3 b hb hb' fun x hx => hall x (by simp [hx])
              · rcases List.mem_cons.1 hb with rfl | hb
                · exact absurd e hp
                · exact g4 b hb e
            · rintro ⟨⟨g1, g2, g3⟩, g4⟩
              refine ⟨g1 s (by simp) t (by simp) hp heq.symm, ⟨fun a ha b hb => g1 a (by simp [ha]) b (by simp [hb]),
                fun a ha hall => g2 a (by simp [ha]) fun x hx hx' => ?_, fun b hb hb' hall => g3 b (by simp [hb]) hb' fun x hx => ?_⟩, fun b hb => g4 b (by simp [hb])⟩
              · rcases List.mem_cons.1 hx with rfl | hx
                · exact ltBytes_ne (hgt a ha)
                · exact hall x hx hx'
              · rcases List.mem_cons.1 hx with rfl | hx
                · exact ltBytes_ne (hlt b hb hb')
                · exact hall x hx

theorem plainKey_lt {k : Bytes} (h : ltBytes k pctKey = true) : plainKey k = k := by
  unfold plainKey
  split
  · rename_i hk
    match k with
    | [] => rfl
    | [c] => rw [hk c (by simp)] at h; exact absurd h (by decide)
    | c :: d :: l =>
      rw [hk c (by simp)] at h
      simp [ltBytes, pctKey, cmpBytes] at h
  · rfl

theorem mem_beforePct {T : List EV} (hT : T.Pairwise fun a b => ltBytes a.key b.key = true)
    (hp : ∃ t ∈ T, t.key = pctKey) (t : EV) : t ∈ beforePct T ↔ t ∈ T ∧ ltBytes t.key pctKey = true := by
  induction T with
  | nil => simp at hp
  | cons a T ih =>
    rw [List.pairwise_cons] at hT
    unfold beforePct
    split
    · rename_i ha
      simp only [List.not_mem_nil, false_iff, not_and, Bool.not_eq_true]
      intro ht
      rcases List.mem_cons.1 ht with rfl | ht
      · rw [ha]; exact ltBytes_irrefl _
      · rw [← ha]; exact ltBytes_asymm (hT.1 t ht)
    · rename_i ha
      obtain ⟨q, hq, hq'⟩ := hp
      have hq : q ∈ T := by
        rcases List.mem_cons.1 hq with rfl | hq
        · exact absurd hq' ha
        · exact hq
      have hap : ltBytes a.key pctKey = true := hq' ▸ hT.1 q hq
      simp only [List.mem_cons, ih hT.2 ⟨q, hq, hq'⟩]
      constructor
      · rintro (rfl | h)
        · exact ⟨Or.inl rfl, hap⟩
        · exact ⟨Or.inr h.1, h.2⟩
      · rintro ⟨rfl | h, h2⟩
        · exact Or.inl rfl
        · exact Or.inr ⟨h, h2⟩

/-- **C55, the exact condition.** For a subject and a template whose members are in order: the object is accepted
iff the documented meaning holds and, when the template has the rule `%`, either the subject has a member behind all
rules before `%`, or undefined matches the rule `%`. -/
theorem C55_exact_partial (env : Valid.Env) (ev : Ev) (acc : EV → EV → Bool) (s tpl : EV) (fs ft : Bool) (p : Valid.Path) (st : St)
    (hso : s.sh = .obj fs) (hto : tpl.sh = .obj ft)
    (hev : EvIs ev acc st.vars (undefV :: s.kids) (member tpl pctKey :: tpl.kids))
    (hS : s.kids.Pairwise fun a b => ltBytes a.key b.key = true)
    (hT : tpl.kids.Pairwise fun a b => ltBytes a.key b.key = true)
    (hM : tpl.kids.Pairwise fun a b => a.key ≠ pctKey → b.key ≠ pctKey → ltBytes (plainKey a.key) (plainKey b.key) = true)
    (hE : (∃ t ∈ tpl.kids, t.key = pctKey) → (∃ x ∈ s.kids, x.key = []) → ∃ t ∈ tpl.kids, t.key = []) :
    ∃ b st', evalRuleObject env ev s tpl p st = (.ok b, st') ∧ st'.vars = st.vars ∧
      (b = true ↔ ObjAccept acc (member tpl pctKey) s.kids tpl.kids ∧
        ∀ q ∈ tpl.kids, q.key = pctKey →
          (∃ x ∈ s.kids, ∀ t ∈ tpl.kids, ltBytes t.key pctKey = true → ltBytes t.key x.key = true) ∨ acc undefV q = true) := by
  have hi : items s = s.kids := by unfold items; rw [hso]
  have hti : items tpl = tpl.kids := by unfold items; rw [hto]
  have ho : isObj s = true := by unfold isObj; rw [hso]
  obtain ⟨st', e, v⟩ := objLoop_is (env := env) (ev := ev) (p := p) (s.kids.length + tpl.kids.length + 1) s.kids tpl.kids (by omega) hev st rfl
  refine ⟨mergeB acc (member tpl pctKey) (s.kids.length + tpl.kids.length + 1) s.kids tpl.kids, st', ?_, v, ?_⟩
  · unfold evalRuleObject
    rw [ho, hi, hti]
    exact e
  · have hTO : TOrd tpl.kids := by
      unfold TOrd
      refine List.Pairwise.imp₂ ?_ hM hT
      intro a b h1 h2
      refine ⟨h1, fun ha hb => ?_⟩
      rw [ha, hb, ltBytes_irrefl] at h2
      simp at h2
    rw [mergeB_spec _ _ _ (by omega) hS hTO]
    · refine and_congr_right fun _ => ?_
      refine forall_congr' fun q => forall_congr' fun hq => forall_congr' fun hq' => ?_
      refine or_congr ?_ Iff.rfl
      unfold Passed
      refine exists_congr fun x => and_congr_right fun _ => ?_
      constructor
      · intro h t ht hlt
        have := h t ((mem_beforePct hT ⟨q, hq, hq'⟩ t).2 ⟨ht, hlt⟩)
        rwa [plainKey_lt hlt] at this
      · intro h t ht
        obtain ⟨h1, h2⟩ := (mem_beforePct hT ⟨q, hq, hq'⟩ t).1 ht
        rw [plainKey_lt h2]
        exact h t h1 h2
    · intro hp x hx hxe
      obtain ⟨t, ht, hte⟩ := hE hp ⟨x, hx, hxe⟩
      refine ⟨t, (mem_beforePct hT hp t).2 ⟨ht, by rw [hte]; rfl⟩, by rw [hte]; rfl⟩

/-- **C55 for templates without keys made of percent signs**: the documented meaning, exactly. -/
theorem C55_plain (env : Valid.Env) (ev : Ev) (acc : EV → EV → Bool) (s tpl : EV) (fs ft : Bool) (p : Valid.Path) (st : St)
    (hso : s.sh = .obj fs) (hto : tpl.sh = .obj ft)
    (hev : EvIs ev acc st.vars (undefV :: s.kids) (undefV :: tpl.kids))
    (hS : s.kids.Pairwise fun a b => ltBytes a.key b.key = true)
    (hT : tpl.kids.Pairwise fun a b => ltBytes a.key b.key = true)
    (hP : ∀ t ∈ tpl.kids, t.key ≠ [] → ∃ c ∈ t.key, c ≠ 37) :
    ∃ b st', evalRuleObject env ev s tpl p st = (.ok b, st') ∧ st'.vars = st.vars ∧
      (b = true ↔ (∀ x ∈ s.kids, ∀ t ∈ tpl.kids, t.key = x.key → acc x t = true) ∧
        (∀ x ∈ s.kids, (∀ t ∈ tpl.kids, t.key ≠ x.key) → acc x undefV = true) ∧
        (∀ t ∈ tpl.kids, (∀ x ∈ s.kids, x.key ≠ t.key) → acc undefV t = true)) := by
  have hne : ∀ t ∈ tpl.kids, t.key ≠ pctKey := by
    intro t ht e
    obtain ⟨c, hc, hc'⟩ := hP t ht (by rw [e]; decide)
    rw [e] at hc
    simp [pctKey] at hc
    exact hc' hc
  have hpl : ∀ t ∈ tpl.kids, plainKey t.key = t.key := by
    intro t ht
    by_cases h : t.key = []
    · rw [h]; rfl
    · obtain ⟨c, hc, hc'⟩ := hP t ht h
      unfold plainKey
      rw [if_neg (fun hh => hc' (hh c hc))]
  have hmem : member tpl pctKey = undefV := by
    unfold member
    rw [hto]
    simp only
    rw [List.find?_eq_none.2]
    · rfl
    · intro x hx
      simpa using hne x hx
  obtain ⟨b, st', e, v, hb⟩ := C55_exact_partial env ev acc s tpl fs ft p st hso hto (by rw [hmem]; exact hev) hS hT
    (hT.imp_of_mem (fun {a b} ha hb h _ _ => by rw [hpl a ha, hpl b hb]; exact h)) (fun ⟨t, ht, e⟩ => absurd e (hne t ht))
  refine ⟨b, st', e, v, hb.trans ?_⟩
  rw [hmem]
  unfold ObjAccept
  constructor
  · rintro ⟨⟨h1, h2, h3⟩, -⟩
    refine ⟨fun x hx t ht e => h1 x hx t ht (hne t ht) (by rw [hpl t ht]; exact e),
      fun x hx hall => h2 x hx fun t ht _ => by rw [hpl t ht]; exact hall t ht,
      fun t ht hall => h3 t ht (hne t ht) fun x hx => by rw [hpl t ht]; exact hall x hx⟩
  · rintro ⟨h1, h2, h3⟩
    refine ⟨⟨fun x hx t ht _ e => h1 x hx t ht (by rw [hpl t ht] at e; exact e),
      fun x hx hall => h2 x hx fun t ht => by have := hall t ht (hne t ht); rwa [hpl t ht] at this,
      fun t ht _ hall => h3 t ht fun x hx => by have := hall x hx; rwa [hpl t ht] at this⟩,
      fun q hq e => absurd e (hne q hq)⟩

/-- The hypotheses hold for `{"a":"x"}` and `{"a":"string"}`. -/
example : ∃ acc, EvIs (evalRule venv undefV 3) acc [] (undefV :: [vks 7 (ascii "a") "x"])
    (undefV :: [vks 8 (ascii "a") "string"]) ∧ acc (vks 7 (ascii "a") "x") (vks 8 (ascii "a") "string") = true ∧
    acc undefV (vks 8 (ascii "a") "string") = false := by
  refine ⟨fun s t => isStr s && isStr t, ?_, rfl, rfl⟩
  intro s hs t ht p st hst
  have hes : ∀ s : EV, evalBody venv (evalRule venv undefV 2) undefV s (vks 8 (ascii "a") "string") p = pure (isStr s) := by
    intro s
    have : namedRule venv (ascii "string") s = some (isStr s) := by
      unfold namedRule
      rw [if_pos rfl]
    have ha : ascii "string" = [115, 116, 114, 105, 110, 103] := by decide
    have he : evalBody venv (evalRule venv undefV 2) undefV s (vks 8 (ascii "a") "string") p =
      evalRuleSimple venv (evalRule venv undefV 2) undefV s (ascii "string") p := rfl
    rw [he]
    rw [ha] at this ⊢
    unfold evalRuleSimple
    dsimp only
    rw [if_neg (by decide), if_neg (by decide), if_neg (by decide), this]
  have hfin : ∀ (r : EV) (b : Bool) st, ∃ st', finish venv r p st.rej.length b st = (.ok b, st') ∧ st'.vars = st.vars := by
    intro r b st
    unfold finish
    cases b with
    | true => exact ⟨_, rfl, rfl⟩
    | false =>
      obtain ⟨st', h1, h2⟩ := addRej_ok venv p r st
      exact ⟨st', by simp [h1], h2⟩
  simp only [List.mem_cons, List.not_mem_nil, or_false] at ht
  rcases ht with rfl | rfl
  · obtain ⟨st', h1, h2⟩ := hfin undefV false st
    refine ⟨st', ?_, h2.trans hst⟩
    have : (isStr s && isStr undefV) = false := by simp [isStr, undefV, EV.sh]
    dsimp only
    rw [this, ← h1]
    rfl
  · obtain ⟨st', h1, h2⟩ := hfin (vks 8 (ascii "a") "string") (isStr s) st
    refine ⟨st', ?_, h2.trans hst⟩
    have h3 : (isStr s && isStr (vks 8 (ascii "a") "string")) = isStr s := by simp [isStr, vks, EV.sh]
    dsimp only
    rw [h3, ← h1]
    have hstep : evalRule venv undefV 3 s (vks 8 (ascii "a") "string") p st =
        (evalBody venv (evalRule venv undefV 2) undefV s (vks 8 (ascii "a") "string") p >>=
          fun res => finish venv (vks 8 (ascii "a") "string") p st.rej.length res) st := rfl
    rw [hstep, hes s, bind_def]
    rfl

/-- **C55 does not hold for a subject without members behind the rules before `%`**: the rule for other members is
applied to undefined. `{"%":"string"}` rejects `{}` and accepts `{"a":"x"}`. -/
theorem C55_violation_empty :
    let df := vo 1 [.node 2 (ascii "_root") false (.obj false) [vks 3 (ascii "%") "string"]]
    (validate venv df 9 (vo 20 []) (ascii "_root") [] {}).1 = .ok false ∧
    (validate venv df 9 (vo 20 [vks 21 (ascii "a") "x"]) (ascii "_root") [] {}).1 = .ok true := by
  decide +kernel

/-- **C55 does not hold for the empty key**: `{"%":"string"}` accepts `{"":5}` and rejects `{"a":5}`. -/
theorem C55_violation_key :
    let df := vo 1 [.node 2 (ascii "_root") false (.obj false) [vks 3 (ascii "%") "string"]]
    (validate venv df 9 (vo 20 [.node 21 [] false (.num (.uint 5)) []]) (ascii "_root") [] {}).1 = .ok true ∧
    (validate venv df 9 (vo 20 [.node 21 (ascii "a") false (.num (.uint 5)) []]) (ascii "_root") [] {}).1 = .ok false := by
  decide +kernel

/-- **C55 does not hold for keys that change their place when a percent sign is removed**:
`{"%!":"string","%%":"string"}` rejects `{"%":"x","%!":"x"}`; each of the two rules alone accepts its member. -/
theorem C55_violation_order :
    let df := vo 1 [.node 2 (ascii "_root") false (.obj false) [vks 3 (ascii "%!") "string", vks 4 (ascii "%%") "string"],
      .node 5 (ascii "a") false (.obj false) [vks 6 (ascii "%!") "string"],
      .node 7 (ascii "b") false (.obj false) [vks 8 (ascii "%%") "string"]]
    (validate venv df 9 (vo 20 [vks 21 (ascii "%") "x", vks 22 (ascii "%!") "x"]) (ascii "_root") [] {}).1 = .ok false ∧
    (validate venv df 9 (vo 20 [vks 22 (ascii "%!") "x"]) (ascii "a") [] {}).1 = .ok true ∧
    (validate venv df 9 (vo 20 [vks 21 (ascii "%") "x"]) (ascii "b") [] {}).1 = .ok true := by
  decide +kernel

end Imt.Props
