import Verif.Props.ValidObj
import Verif.Props.Equal
/-!
# C95: lists of rules, negation, tuples and arrays; C96: ranges
-/
namespace Imt.Props
open Imt Imt.Eq Imt.Valid

/-! ## C95 -/

theorem alts_is {ev : Ev} {acc : EV → EV → Bool} {V : List EV} {s : EV} {p : Valid.Path} (l : List EV)
    (h : EvIs ev acc V [s] l) (st : St) (hst : st.vars = V) :
    ∃ st', alts ev s p l st = (.ok (l.any fun r => acc s r), st') ∧ st'.vars = V := by
  induction l generalizing st with
  | nil => exact ⟨st, rfl, hst⟩
  | cons r l ih =>
    obtain ⟨st1, e1, v1⟩ := h s (by simp) r (by simp) p st hst
    unfold alts
    rw [bind_def, e1, List.any_cons]
    cases ha : acc s r with
    | true => exact ⟨st1, rfl, v1⟩
    | false =>
      obtain ⟨st2, e2, v2⟩ := ih (fun x hx y hy => h x hx y (by simp [hy])) st1 v1
      exact ⟨st2, by simpa using e2, v2⟩

/-- **C95, alternatives**: a list of rules accepts the subject iff one of the rules from `off` on accepts it. -/
theorem C95_alternatives (ev : Ev) (acc : EV → EV → Bool) (s rule : EV) (off : Nat) (p : Valid.Path) (st : St)
    (h : EvIs ev acc st.vars [s] ((items rule).drop off)) :
    ∃ b st', alternatives ev s rule off p st = (.ok b, st') ∧ st'.vars = st.vars ∧
      (b = true ↔ ∃ i r, off ≤ i ∧ (items rule)[i]? = some r ∧ acc s r = true) := by
  obtain ⟨st', e, v⟩ := alts_is (p := p) _ h st rfl
  refine ⟨_, st', e, v, ?_⟩
  rw [List.any_eq_true]
  constructor
  · rintro ⟨r, hr, ha⟩
    obtain ⟨i, hi⟩ := List.mem_iff_getElem?.1 hr
    rw [List.getElem?_drop] at hi
    exact ⟨off + i, r, by omega, hi, ha⟩
  · rintro ⟨i, r, hi, hr, ha⟩
    refine ⟨r, List.mem_iff_getElem?.2 ⟨i - off, ?_⟩, ha⟩
    rw [List.getElem?_drop, Nat.add_sub_cancel' hi]
    exact hr

/-- **C95, negation**: `["!",r1,...]` accepts the subject iff none of the rules accepts it. -/
theorem C95_not (env : Valid.Env) (ev : Ev) (acc : EV → EV → Bool) (s rule : EV) (token : Bytes) (p : Valid.Path) (st : St)
    (ht : token = ascii "not" ∨ token = ascii "!")
    (h : EvIs ev acc st.vars [s] ((items rule).drop 1)) :
    ∃ b st', evalToken env ev s rule token p st = (.ok b, st') ∧ st'.vars = st.vars ∧
      (b = true ↔ ∀ i r, 1 ≤ i → (items rule)[i]? = some r → acc s r = false) := by
  obtain ⟨b, st', e, v, hb⟩ := C95_alternatives ev acc s rule 1 p st h
  refine ⟨!b, st', ?_, v, ?_⟩
  · have : evalToken env ev s rule token p st = (alternatives ev s rule 1 p >>= fun b => pure (!b)) st := by
      unfold evalToken
      rw [bind_def]
      simp only [M.get]
      rcases ht with rfl | rfl <;>
      · rw [if_neg (by decide), if_neg (by decide), if_neg (by decide), if_neg (by decide), if_neg (by decide),
          if_neg (by decide), if_neg (by decide), if_neg (by decide), if_neg (by decide), if_neg (by decide),
          if_neg (by decide), if_neg (by decide), if_pos (by decide)]
    rw [this, bind_def, e]
    rfl
  · cases b with
    | true =>
      obtain ⟨i, r, h1, h2, h3⟩ := hb.1 rfl
      simp only [Bool.not_true, Bool.false_eq_true, false_iff]
      intro hh
      rw [hh i r h1 h2] at h3
      simp at h3
    | false =>
      simp only [Bool.not_false, true_iff]
      intro i r h1 h2
      rw [← Bool.not_eq_true]
      intro h3
      exact absurd (hb.2 ⟨i, r, h1, h2, h3⟩) (by simp)

theorem tupleLoop_is {ev : Ev} {acc : EV → EV → Bool} {V : List EV} {s rule : EV} {off : Nat} {p : Valid.Path} (n : Nat) (i : Nat)
    (h : ∀ j, i ≤ j → j < i + n → ∀ p st, st.vars = V → ∃ st', ev (at' s j) (at' rule (j + off)) p st = (.ok (acc (at' s j) (at' rule (j + off))), st') ∧ st'.vars = V)
    (st : St) (hst : st.vars = V) :
    ∃ b st', tupleLoop ev s rule off p n i st = (.ok b, st') ∧ st'.vars = V ∧
      (b = true ↔ ∀ j, i ≤ j → j < i + n → acc (at' s j) (at' rule (j + off)) = true) := by
  induction n generalizing i st with
  | zero => exact ⟨true, st, rfl, hst, by simp; omega⟩
  | succ n ih =>
    obtain ⟨st1, e1, v1⟩ := h i (by omega) (by omega) (p ++ [.idx i]) st hst
    unfold tupleLoop
    rw [bind_def, e1]
    cases ha : acc (at' s i) (at' rule (i + off)) with
    | false =>
      refine ⟨false, st1, rfl, v1, ?_⟩
      simp only [Bool.false_eq_true, false_iff]
      intro hh
      rw [hh i (by omega) (by omega)] at ha
      simp at ha
    | true =>
      obtain ⟨b, st2, e2, v2, hb⟩ := ih (i + 1) (fun j h1 h2 => h j (by omega) (by omega)) st1 v1
      refine ⟨b, st2, by simpa using e2, v2, hb.trans ?_⟩
      constructor
      · intro hh j h1 h2
        by_cases hj : j = i
        · rw [hj]; exact ha
        · exact hh j (by omega) (by omega)
      · intro hh j h1 h2
        exact hh j (by omega) (by omega)

theorem subAlts_is {env : Valid.Env} {ev : Ev} {acc : EV → EV → Bool} {V : List EV} {s rule : EV} {i off : Nat} {p : Valid.Path}
    (h : EvIs ev acc V [s] ((items rule).drop off)) (st : St) (hst : st.vars = V) :
    ∃ b st', subAlts env ev s rule i off p st = (.ok b, st') ∧ st'.vars = V ∧
      (b = true ↔ ∃ j r, off ≤ j ∧ (items rule)[j]? = some r ∧ acc s r = true) := by
  subst hst
  obtain ⟨b, st1, e1, v1, hb⟩ := C95_alternatives ev acc s rule off (p ++ [.idx i]) st h
  have hstep : subAlts env ev s rule i off p st = (alternatives ev s rule off (p ++ [.idx i]) >>= fun b =>
      if !b then (do addRej env (p ++ [.idx i]) rule; pure false) else (do truncRej st.rej.length; pure true)) st := rfl
  rw [hstep, bind_def, e1]
  cases b with
  | true => exact ⟨true, _, rfl, v1, hb⟩
  | false =>
    obtain ⟨st2, e2, v2⟩ := addRej_ok env (p ++ [.idx i]) rule st1
    exact ⟨false, st2, by simp [e2], v2.trans v1, hb⟩

theorem restLoop_is {env : Valid.Env} {ev : Ev} {acc : EV → EV → Bool} {V : List EV} {rule : EV} {off : Nat} {p : Valid.Path} (l : List EV) (i : Nat)
    (h : EvIs ev acc V l ((items rule).drop off)) (st : St) (hst : st.vars = V) :
    ∃ b st', restLoop env ev rule off p l i st = (.ok b, st') ∧ st'.vars = V ∧
      (b = true ↔ ∀ x ∈ l, ∃ j r, off ≤ j ∧ (items rule)[j]? = some r ∧ acc x r = true) := by
  induction l generalizing i st with
  | nil => exact ⟨true, st, rfl, hst, by simp⟩
  | cons x l ih =>
    obtain ⟨b, st1, e1, v1, hb⟩ := subAlts_is (env := env) (i := i) (p := p) (s := x)
      (fun a ha y hy => h a (by simp at ha ⊢; tauto) y hy) st hst
    unfold restLoop
    rw [bind_def, e1]
    cases b with
    | false =>
      refine ⟨false, st1, rfl, v1, ?_⟩
      simp only [Bool.false_eq_true, false_iff] at hb ⊢
      exact fun hh => hb (hh x (by simp))
    | true =>
      obtain ⟨b2, st2, e2, v2, hb2⟩ := ih (i + 1) (fun a ha y hy => h a (by simp [ha]) y hy) st1 v1
      refine ⟨b2, st2, by simpa using e2, v2, hb2.trans ?_⟩
      rw [List.forall_mem_cons]
      exact ⟨fun hh => ⟨hb.1 rfl, hh⟩, fun hh => hh.2⟩

/-- **C95, arrays**: with `cnt` leading places the item of each place matches the rule of the place (items behind the
end are undefined), and every further item matches one of the remaining rules. -/
theorem C95_array (env : Valid.Env) (ev : Ev) (acc : EV → EV → Bool) (s rule : EV) (cnt : Nat) (p : Valid.Path) (st : St)
    (hc : cnt < 2 ^ 32 - 1)
    (h1 : ∀ j < cnt, EvIs ev acc st.vars [at' s j] [at' rule (j + 1)])
    (h2 : EvIs ev acc st.vars ((items s).drop cnt) ((items rule).drop (cnt + 1))) :
    ∃ b st', evalRuleArray env ev s rule cnt 1 p st = (.ok b, st') ∧ st'.vars = st.vars ∧
      (b = true ↔ s.sh = .arr ∧
        (∀ j < cnt, acc ((s.kids[j]?).getD undefV) (((items rule)[j + 1]?).getD undefV) = true) ∧
        ∀ i x, cnt ≤ i → s.kids[i]? = some x → ∃ j r, cnt + 1 ≤ j ∧ (items rule)[j]? = some r ∧ acc x r = true) := by
  by_cases ha : s.sh = .arr
  · have hia : isArr s = true := by unfold isArr; rw [ha]
    have his : items s = s.kids := by unfold items; rw [ha]
    obtain ⟨b, st1, e1, v1, hb⟩ := tupleLoop_is (V := st.vars) (p := p) (off := 1) (s := s) (rule := rule) (acc := acc) (ev := ev) cnt 0
      (fun j _ h2 => h1 j (by omega) _ (by simp) _ (by simp)) st rfl
    have hstep : evalRuleArray env ev s rule cnt 1 p st = (tupleLoop ev s rule 1 p cnt 0 >>= fun b =>
      if !b then pure false else restLoop env ev rule ((cnt + 1) % 4294967296) p ((items s).drop cnt) cnt) st := by
      unfold evalRuleArray
      rw [hia]
      rfl
    rw [hstep, bind_def, e1, Nat.mod_eq_of_lt (by omega)]
    have hb' : b = true ↔ ∀ j < cnt, acc ((s.kids[j]?).getD undefV) (((items rule)[j + 1]?).getD undefV) = true := by
      rw [hb]
      simp only [at', his, Nat.zero_le, Nat.zero_add, true_implies]
    cases b with
    | false =>
      refine ⟨false, st1, rfl, v1, ?_⟩
      simp only [Bool.false_eq_true, false_iff] at hb' ⊢
      exact fun hh => hb' hh.2.1
    | true =>
      obtain ⟨b2, st2, e2, v2, hb2⟩ := restLoop_is (env := env) (p := p) _ cnt h2 st1 v1
      refine ⟨b2, st2, by simpa using e2, v2, hb2.trans ?_⟩
      rw [his]
      constructor
      · intro hh
        refine ⟨ha, hb'.1 rfl, fun i x hi hx => hh x (List.mem_iff_getElem?.2 ⟨i - cnt, ?_⟩)⟩
        rw [List.getElem?_drop, Nat.add_sub_cancel' hi]
        exact hx
      · rintro ⟨-, -, hh⟩ x hx
        obtain ⟨i, hi⟩ := List.mem_iff_getElem?.1 hx
        rw [List.getElem?_drop] at hi
        exact hh (cnt + i) x (by omega) hi
  · have hia : isArr s = false := by
      unfold isArr
      split
      · rename_i h; exact absurd h ha
      · rfl
    refine ⟨false, st, ?_, rfl, ?_⟩
    · unfold evalRuleArray
      rw [hia]
      rfl
    · simp [ha]

/-- The hypotheses hold for literal rules on any values. -/
example (df : EV) (n : Nat) (V A B : List EV) (hB : ∀ t ∈ B, isLit t = true) :
    EvIs (evalRule venv df (n + 1)) (fun s t => opEq s t) V A B := by
  intro s _ t ht p st hst
  exact ⟨st, by simp [evalRule, step, hB t ht], hst⟩

/-- Which reading an array as a rule has: the first item decides. -/
theorem evalBody_arr (env : Valid.Env) (ev : Ev) (df s rule f : EV) (rs : List EV) (p : Valid.Path) (hr : rule.sh = .arr) (hk : rule.kids = f :: rs) :
    evalBody env ev df s rule p = evalRuleWithParams env ev s rule p ∧ items rule = f :: rs ∧ at' rule 0 = f := by
  have hi : items rule = f :: rs := by unfold items; rw [hr]; exact hk
  refine ⟨by unfold evalBody; rw [hr], hi, by unfold at'; rw [hi]; rfl⟩

/-- **C95, named rules**: a rule that begins with a string is the rule of that name. -/
theorem C95_rule_named (env : Valid.Env) (ev : Ev) (df s rule f : EV) (rs : List EV) (p : Valid.Path) (t : Bytes) (w : Bool)
    (hr : rule.sh = .arr) (hk : rule.kids = f :: rs) (hf : f.sh = .str t w) : evalBody env ev df s rule p = evalToken env ev s rule t p := by
  obtain ⟨e, hi, ha⟩ := evalBody_arr env ev df s rule f rs p hr hk
  rw [e]
  unfold evalRuleWithParams
  rw [hi, ha, hf]
  rfl

/-- **C95, arrays of any length**: a rule that begins with `[]` accepts the arrays each item of which matches one of the other rules. -/
theorem C95_rule_list (env : Valid.Env) (ev : Ev) (acc : EV → EV → Bool) (df s rule f : EV) (rs : List EV) (p : Valid.Path) (st : St)
    (hr : rule.sh = .arr) (hk : rule.kids = f :: rs) (hf : f.sh = .arr) (hfk : f.kids = [])
    (h : EvIs ev acc st.vars (items s) rs) :
    ∃ b st', evalBody env ev df s rule p st = (.ok b, st') ∧ st'.vars = st.vars ∧
      (b = true ↔ s.sh = .arr ∧ ∀ x ∈ s.kids, ∃ r ∈ rs, acc x r = true) := by
  obtain ⟨e, hi, ha⟩ := evalBody_arr env ev df s rule f rs p hr hk
  have he : evalBody env ev df s rule p = evalRuleArray env ev s rule 0 1 p := by
    rw [e]
    unfold evalRuleWithParams
    have : items f = [] := by unfold items; rw [hf]; exact hfk
    rw [hi, ha, hf, this]
    rfl
  obtain ⟨b, st', h1, h2, h3⟩ := C95_array env ev acc s rule 0 p st (by decide) (by intro j hj; omega) (by rw [hi]; exact h)
  refine ⟨b, st', by rw [he]; exact h1, h2, h3.trans ?_⟩
  rw [hi]
  constructor
  · rintro ⟨k1, -, k2⟩
    refine ⟨k1, fun x hx => ?_⟩
    obtain ⟨i, hi'⟩ := List.mem_iff_getElem?.1 hx
    obtain ⟨j, r, hj, hjr, hacc⟩ := k2 i x (Nat.zero_le _) hi'
    cases j with
    | zero => omega
    | succ j => exact ⟨r, List.mem_iff_getElem?.2 ⟨j, by simpa using hjr⟩, hacc⟩
  · rintro ⟨k1, k2⟩
    refine ⟨k1, by intro j hj; omega, fun i x _ hx => ?_⟩
    obtain ⟨r, hr', hacc⟩ := k2 x (List.mem_iff_getElem?.2 ⟨i, hx⟩)
    obtain ⟨j, hj⟩ := List.mem_iff_getElem?.1 hr'
    exact ⟨j + 1, r, by omega, by simpa using hj, hacc⟩

/-- **C95, tuples**: a rule that begins with `[n]` has `n` places. -/
theorem C95_rule_tuple (env : Valid.Env) (ev : Ev) (acc : EV → EV → Bool) (df s rule f n : EV) (rs : List EV) (x : Num) (cnt : Nat)
    (p : Valid.Path) (st : St) (hr : rule.sh = .arr) (hk : rule.kids = f :: rs) (hf : f.sh = .arr) (hfk : f.kids = [n]) (hn : n.sh = .num x)
    (hcnt : env.int n = cnt) (hc : cnt < 2 ^ 32 - 1)
    (h1 : ∀ j < cnt, EvIs ev acc st.vars [at' s j] [(rs[j]?).getD undefV])
    (h2 : EvIs ev acc st.vars ((items s).drop cnt) (rs.drop cnt)) :
    ∃ b st', evalBody env ev df s rule p st = (.ok b, st') ∧ st'.vars = st.vars ∧
      (b = true ↔ s.sh = .arr ∧
        (∀ j < cnt, acc ((s.kids[j]?).getD undefV) ((rs[j]?).getD undefV) = true) ∧
        ∀ i y, cnt ≤ i → s.kids[i]? = some y → ∃ j r, cnt ≤ j ∧ rs[j]? = some r ∧ acc y r = true) := by
  obtain ⟨e, hi, ha⟩ := evalBody_arr env ev df s rule f rs p hr hk
  have hif : items f = [n] := by unfold items; rw [hf]; exact hfk
  have h0 : at' f 0 = n := by unfold at'; rw [hif]; rfl
  have he : evalBody env ev df s rule p = evalRuleArray env ev s rule cnt 1 p := by
    rw [e]
    unfold evalRuleWithParams
    have hnum : isNum n = true := by unfold isNum; rw [hn]
    have hm : ((cnt : Int) % 4294967296).toNat = cnt := by omega
    rw [hi, ha, hf, hif, h0, hnum, hcnt, hm]
    rfl
  obtain ⟨b, st', k1, k2, k3⟩ := C95_array env ev acc s rule cnt p st hc
    (by
      intro j hj
      have : at' rule (j + 1) = (rs[j]?).getD undefV := by unfold at'; rw [hi]; simp
      rw [this]
      exact h1 j hj) (by rw [hi]; exact h2)
  refine ⟨b, st', by rw [he]; exact k1, k2, k3.trans ?_⟩
  rw [hi]
  refine and_congr_right fun _ => and_congr (by simp) ?_
  constructor
  · intro k i y hiy hy
    obtain ⟨j, r, hj, hjr, hacc⟩ := k i y hiy hy
    cases j with
    | zero => omega
    | succ j => exact ⟨j, r, by omega, by simpa using hjr, hacc⟩
  · intro k i y hiy hy
    obtain ⟨j, r, hj, hjr, hacc⟩ := k i y hiy hy
    exact ⟨j + 1, r, by omega, by simpa using hjr, hacc⟩

/-- **C95, choices**: any other array whose first item is not a string accepts what one of its items accepts. -/
theorem C95_rule_choice (env : Valid.Env) (ev : Ev) (acc : EV → EV → Bool) (df s rule f : EV) (rs : List EV) (p : Valid.Path) (st : St)
    (hr : rule.sh = .arr) (hk : rule.kids = f :: rs) (hs : ∀ t b, f.sh ≠ .str t b)
    (hf : f.sh = .arr → f.kids ≠ [] ∧ ∀ n x, f.kids = [n] → n.sh ≠ .num x)
    (h : EvIs ev acc st.vars [s] rule.kids) :
    ∃ b st', evalBody env ev df s rule p st = (.ok b, st') ∧ st'.vars = st.vars ∧ (b = true ↔ ∃ r ∈ rule.kids, acc s r = true) := by
  obtain ⟨e, hi, ha⟩ := evalBody_arr env ev df s rule f rs p hr hk
  have he : evalBody env ev df s rule p = alternatives ev s rule 0 p := by
    rw [e]
    unfold evalRuleWithParams
    rw [hi, ha]
    rw [if_neg (by simp)]
    split
    · rename_i harr
      obtain ⟨g1, g2⟩ := hf harr
      have hif : items f = f.kids := by unfold items; rw [harr]
      rw [hif, if_neg (by simpa using g1), if_neg]
      rintro ⟨g3, g4⟩
      obtain ⟨n, hn⟩ := List.length_eq_one_iff.1 g3
      have h0 : at' f 0 = n := by unfold at'; rw [hif, hn]; rfl
      rw [h0] at g4
      unfold isNum at g4
      split at g4
      · rename_i x hx
        exact g2 n x hn hx
      · cases g4
    · rename_i t b ht
      exact absurd ht (hs t b)
    · rfl
  obtain ⟨b, st', h1, h2, h3⟩ := C95_alternatives ev acc s rule 0 p st (by rw [hi, ← hk]; exact h)
  refine ⟨b, st', by rw [he]; exact h1, h2, h3.trans ?_⟩
  rw [hi, ← hk]
  constructor
  · rintro ⟨i, r, -, hir, hacc⟩
    exact ⟨r, List.mem_iff_getElem?.2 ⟨i, hir⟩, hacc⟩
  · rintro ⟨r, hr', hacc⟩
    obtain ⟨i, hi'⟩ := List.mem_iff_getElem?.1 hr'
    exact ⟨i, r, Nat.zero_le _, hi', hacc⟩

/-- Whole rules: `[[],1,2]`, `[[2],1,2]`, `[[2],1,2,3]` and `[["string"],1]` on arrays. -/
example : (evalRule venv undefV 4 (va 20 [vn 21 2, vn 22 1, vn 23 2]) (va 1 [va 2 [], vn 3 1, vn 4 2]) [] {}).1 = .ok true ∧
    (evalRule venv undefV 4 (va 20 [vn 21 2, vn 22 1]) (va 1 [va 2 [vn 5 2], vn 3 1, vn 4 2]) [] {}).1 = .ok false ∧
    (evalRule venv undefV 4 (va 20 [vn 21 1, vn 22 2, vn 23 3]) (va 1 [va 2 [vn 5 2], vn 3 1, vn 4 2, vn 6 3]) [] {}).1 = .ok true ∧
    (evalRule venv undefV 4 (vn 21 1) (va 1 [va 2 [vs 5 "string"], vn 3 1]) [] {}).1 = .ok true := by
  refine ⟨?_, ?_, ?_, ?_⟩ <;> decide +kernel

/-! ## C96 -/

/-- The relation a sign stands for, on values of numbers. -/
def signHolds (name : Bytes) (x y : D) : Prop :=
  if name = ascii "<" then dlt x y = true
  else if name = ascii ">" then dlt y x = true
  else if name = ascii "<=" then dlt x y = true ∨ x = y
  else dlt y x = true ∨ x = y

theorem numLess_nice {a b : Num} (ha : Nice a) (hb : Nice b) : numLess a b = dlt a.dbl' b.dbl' := by
  unfold numLess
  have hs : ∀ n : Num, isS n = true → n.isI = true := by intro n; cases n <;> simp [isS, Num.isI]
  have hu : ∀ n : Num, n.isU = true → n.isI = true := by intro n; cases n <;> simp [Num.isU, Num.isI]
  split
  · rename_i h
    rw [Bool.and_eq_true] at h
    obtain ⟨a1, a2, -⟩ := nice_int ha (hs a h.1)
    obtain ⟨b1, b2, -⟩ := nice_int hb (hs b h.2)
    rw [a1, b1, dlt_mul one one_pos, a2, b2]
  · split
    · rename_i h
      rw [Bool.and_eq_true] at h
      obtain ⟨a1, -, a3⟩ := nice_int ha (hu a h.1)
      obtain ⟨b1, -, b3⟩ := nice_int hb (hu b h.2)
      have a4 := a3 h.1
      have b4 := b3 h.2
      rw [a1, b1, dlt_mul one one_pos]
      have e1 : (a.getU < b.getU) ↔ (intOf a < intOf b) := by omega
      simp only [e1]
    · rfl

theorem dlt_total {x y : D} (hx : x ≠ .nan) (hy : y ≠ .nan) : (!dlt x y) = true ↔ dlt y x = true ∨ x = y := by
  cases x with
  | nan => exact absurd rfl hx
  | fin a =>
    cases y with
    | nan => exact absurd rfl hy
    | fin b => simp [dlt]; omega
    | inf b => cases b <;> simp [dlt]
  | inf a =>
    cases y with
    | nan => exact absurd rfl hy
    | fin b => cases a <;> simp [dlt]
    | inf b => cases a <;> cases b <;> simp [dlt]

/-- A rule of signs and operands. -/
def rangeRule (l : List (Bytes × EV)) : List EV := l.flatMap fun x => [.node 0 [] false (.str x.1 false) [], x.2]

/-- **C96 for numbers**: for a number and operands that are numbers, integers exact as doubles and within the signed
range, no NaN: the rule accepts iff every relation holds. The operands are not references to variables. -/
theorem C96_range_partial (env : Valid.Env) (ev : Ev) (s : EV) (x : Num) (p : Valid.Path) (st : St) (l : List (Bytes × EV))
    (hs : s.sh = .num x) (hx : Nice x)
    (hl : ∀ a ∈ l, (a.1 = ascii "<" ∨ a.1 = ascii ">" ∨ a.1 = ascii "<=" ∨ a.1 = ascii ">=") ∧
      ∃ y, a.2.sh = .num y ∧ Nice y) :
    ∃ b, rangeLoop env ev s p (rangeRule l) st = (.ok b, st) ∧
      (b = true ↔ ∀ a ∈ l, ∀ y, a.2.sh = .num y → signHolds a.1 x.dbl' y.dbl') := by
  induction l with
  | nil => exact ⟨true, rfl, by simp⟩
  | cons a l ih =>
    obtain ⟨b, hb1, hb2⟩ := ih (fun c hc => hl c (by simp [hc]))
    obtain ⟨hsign, y, hy, hny⟩ := hl a (by simp)
    have hvar : getVar env st.vars s a.2 = a.2 := by
      rcases ha2 : a.2 with ⟨_, _, _, sh, _⟩
      rw [ha2] at hy
      simp only [EV.sh] at hy
      subst hy
      unfold getVar
      rfl
    have hless1 : isLess s a.2 = dlt x.dbl' y.dbl' := by unfold isLess; rw [hs, hy]; exact numLess_nice hx hny
    have hless2 : isLess a.2 s = dlt y.dbl' x.dbl' := by unfold isLess; rw [hs, hy]; exact numLess_nice hny hx
    have hty : sameType a.2 s = true := by unfold sameType; rw [hs, hy]; rfl
    have hf : ∃ f, rangeItem (.node 0 [] false (.str a.1 false) []) = .test f ∧ (f s a.2 = true ↔ signHolds a.1 x.dbl' y.dbl') := by
      rcases hsign with h | h | h | h <;> rw [h]
      · exact ⟨_, rfl, by simp [hty, hless1, signHolds]⟩
      · refine ⟨_, rfl, ?_⟩
        simp only [hty, hless2, Bool.true_and]
        unfold signHolds
        rw [if_neg (by decide), if_pos rfl]
      · refine ⟨_, rfl, ?_⟩
        simp only [hty, hless2, Bool.true_and]
        unfold signHolds
        rw [if_neg (by decide), if_neg (by decide), if_pos rfl, dlt_total (nice_nan hny) (nice_nan hx)]
        exact or_congr Iff.rfl eq_comm
      · refine ⟨_, rfl, ?_⟩
        simp only [hty, hless1, Bool.true_and]
        unfold signHolds
        rw [if_neg (by decide), if_neg (by decide), if_neg (by decide), dlt_total (nice_nan hx) (nice_nan hny)]
    obtain ⟨f, hf1, hf2⟩ := hf
    have hstep : rangeLoop env ev s p (rangeRule (a :: l)) st =
        if f s a.2 then rangeLoop env ev s p (rangeRule l) st else (.ok false, st) := by
      have : rangeRule (a :: l) = .node 0 [] false (.str a.1 false) [] :: a.2 :: rangeRule l := by simp [rangeRule]
      rw [this, rangeLoop]
      rw [hf1]
      simp only []
      rw [bind_def]
      simp only [M.get, hvar]
      split <;> rfl
    rw [hstep]
    cases hfa : f s a.2 with
    | true =>
      refine ⟨b, by simpa using hb1, ?_⟩
      rw [List.forall_mem_cons, hb2]
      constructor
      · exact fun hh => ⟨fun z hz => by rw [hy] at hz; cases hz; exact hf2.1 hfa, hh⟩
      · exact fun hh => hh.2
    | false =>
      refine ⟨false, by simp, ?_⟩
      simp only [Bool.false_eq_true, false_iff]
      intro hh
      have := hf2.2 (hh a (by simp) y hy)
      rw [hfa] at this
      simp at this

example : Nice (.uint 5) ∧ Nice (.int (-7)) ∧ Nice (.dbl 0x4014000000000000) := by
  refine ⟨⟨?_, by decide⟩, ?_, ?_⟩
  · decide +kernel
  · show rnd 7 = 7
    decide +kernel
  · show dval _ ≠ _
    decide +kernel

/-- A sign as a relation, given what "less" means both ways. -/
def signRel (name : Bytes) (lt gt : Prop) : Prop :=
  if name = ascii "<" then lt
  else if name = ascii ">" then gt
  else if name = ascii "<=" then ¬gt
  else ¬lt

theorem range_signs (env : Valid.Env) (ev : Ev) (s : EV) (p : Valid.Path) (st : St) (l : List (Bytes × EV))
    (hl : ∀ a ∈ l, (a.1 = ascii "<" ∨ a.1 = ascii ">" ∨ a.1 = ascii "<=" ∨ a.1 = ascii ">=") ∧
      sameType a.2 s = true ∧ getVar env st.vars s a.2 = a.2) :
    ∃ b, rangeLoop env ev s p (rangeRule l) st = (.ok b, st) ∧
      (b = true ↔ ∀ a ∈ l, signRel a.1 (isLess s a.2 = true) (isLess a.2 s = true)) := by
  induction l with
  | nil => exact ⟨true, rfl, by simp⟩
  | cons a l ih =>
    obtain ⟨b, hb1, hb2⟩ := ih (fun c hc => hl c (by simp [hc]))
    obtain ⟨hsign, hty, hvar⟩ := hl a (by simp)
    have hf : ∃ f, rangeItem (.node 0 [] false (.str a.1 false) []) = .test f ∧
        (f s a.2 = true ↔ signRel a.1 (isLess s a.2 = true) (isLess a.2 s = true)) := by
      rcases hsign with h | h | h | h <;> rw [h] <;> refine ⟨_, rfl, ?_⟩ <;> simp only [hty, Bool.true_and] <;> unfold signRel
      · rw [if_pos rfl]
      · rw [if_neg (by decide), if_pos rfl]
      · rw [if_neg (by decide), if_neg (by decide), if_pos rfl]
        simp
      · rw [if_neg (by decide), if_neg (by decide), if_neg (by decide)]
        simp
    obtain ⟨f, hf1, hf2⟩ := hf
    have hstep : rangeLoop env ev s p (rangeRule (a :: l)) st =
        if f s a.2 then rangeLoop env ev s p (rangeRule l) st else (.ok false, st) := by
      have : rangeRule (a :: l) = .node 0 [] false (.str a.1 false) [] :: a.2 :: rangeRule l := by simp [rangeRule]
      rw [this, rangeLoop]
      rw [hf1]
      simp only []
      rw [bind_def]
      simp only [M.get, hvar]
      split <;> rfl
    rw [hstep]
    cases hfa : f s a.2 with
    | true =>
      refine ⟨b, by simpa using hb1, ?_⟩
      rw [List.forall_mem_cons, hb2]
      exact ⟨fun hh => ⟨hf2.1 hfa, hh⟩, fun hh => hh.2⟩
    | false =>
      refine ⟨false, by simp, ?_⟩
      simp only [Bool.false_eq_true, false_iff]
      intro hh
      have := hf2.2 (hh a (by simp))
      rw [hfa] at this
      simp at this

theorem getVar_scalar {env : Valid.Env} {vars : List EV} {s v : EV} (h : v.sh ≠ .arr) : getVar env vars s v = v := by
  rcases v with ⟨_, _, _, sh, _⟩
  cases sh <;> first | exact absurd rfl h | rfl

/-- Kinds of integers: signed and unsigned ones; the shared zero is both. -/
def SameKind (x y : Num) : Prop :=
  (x = .zero ∨ (∃ i, x = .int i ∨ x = .precI i)) ∧ (y = .zero ∨ (∃ i, y = .int i ∨ y = .precI i)) ∨
  (x = .zero ∨ (∃ n, x = .uint n ∨ x = .precU n)) ∧ (y = .zero ∨ (∃ n, y = .uint n ∨ y = .precU n))

/-- **C96 for integers of one kind**: between signed integers, and between unsigned ones, of any size, the rule accepts iff every
relation holds between the integers. -/
theorem C96_integers (env : Valid.Env) (ev : Ev) (s : EV) (x : Num) (p : Valid.Path) (st : St) (l : List (Bytes × EV))
    (hs : s.sh = .num x)
    (hl : ∀ a ∈ l, (a.1 = ascii "<" ∨ a.1 = ascii ">" ∨ a.1 = ascii "<=" ∨ a.1 = ascii ">=") ∧
      ∃ y, a.2.sh = .num y ∧ SameKind x y) :
    ∃ b, rangeLoop env ev s p (rangeRule l) st = (.ok b, st) ∧
      (b = true ↔ ∀ a ∈ l, ∀ y, a.2.sh = .num y → signRel a.1 (intOf x < intOf y) (intOf y < intOf x)) := by
  have key : ∀ x y : Num, SameKind x y → (numLess x y = true ↔ intOf x < intOf y) := by
    intro x y h
    unfold SameKind at h
    rcases h with ⟨h1, h2⟩ | ⟨h1, h2⟩
    · rcases h1 with h1 | ⟨i, rfl | rfl⟩ <;> rcases h2 with h2 | ⟨j, rfl | rfl⟩ <;>
        subst_vars <;> simp [numLess, isS, Num.getI, intOf] <;> exact decide_eq_true_iff
    · rcases h1 with h1 | ⟨i, rfl | rfl⟩ <;> rcases h2 with h2 | ⟨j, rfl | rfl⟩ <;>
        subst_vars <;> simp [numLess, isS, Num.getI, Num.isU, Num.getU, intOf] <;> exact decide_eq_true_iff
  have sym : ∀ x y : Num, SameKind x y → SameKind y x := by
    intro x y h
    unfold SameKind at *
    rcases h with ⟨h1, h2⟩ | ⟨h1, h2⟩
    · exact .inl ⟨h2, h1⟩
    · exact .inr ⟨h2, h1⟩
  obtain ⟨b, h1, h2⟩ := range_signs env ev s p st l (fun a ha => by
    obtain ⟨h, y, hy, -⟩ := hl a ha
    exact ⟨h, by unfold sameType; rw [hs, hy]; rfl, getVar_scalar (by rw [hy]; simp)⟩)
  refine ⟨b, h1, h2.trans (forall₂_congr fun a ha => ?_)⟩
  obtain ⟨-, y, hy, hk⟩ := hl a ha
  have e1 : isLess s a.2 = true ↔ intOf x < intOf y := by unfold isLess; rw [hs, hy]; exact key x y hk
  have e2 : isLess a.2 s = true ↔ intOf y < intOf x := by unfold isLess; rw [hs, hy]; exact key y x (sym x y hk)
  simp only [e1, e2]
  constructor
  · intro h z hz
    rw [hy] at hz
    cases hz
    exact h
  · exact fun h => h y hy

/-- Large integers are told apart: `["<=",9007199254740992]` with a signed operand. -/
example : SameKind (.int 9007199254740993) (.int 9007199254740992) ∧ SameKind .zero (.uint (2 ^ 64 - 1)) ∧
    ¬signRel (ascii "<=") (intOf (.int 9007199254740993) < intOf (.int 9007199254740992))
      (intOf (.int 9007199254740992) < intOf (.int 9007199254740993)) := by
  refine ⟨.inl ⟨.inr ⟨_, .inl rfl⟩, .inr ⟨_, .inl rfl⟩⟩, .inr ⟨.inl rfl, .inr ⟨_, .inl rfl⟩⟩, ?_⟩
  unfold signRel
  rw [if_neg (by decide), if_neg (by decide), if_pos rfl]
  simp [intOf]

/-- **C96 for other values**: containers and null are not ordered – between two of one type `<` and `>` refuse, `<=` and `>=` accept. -/
theorem C96_others (env : Valid.Env) (ev : Ev) (s : EV) (p : Valid.Path) (st : St) (l : List (Bytes × EV))
    (hs : (∀ x, s.sh ≠ .num x) ∧ (∀ x b, s.sh ≠ .str x b) ∧ ∀ x, s.sh ≠ .bool x)
    (hl : ∀ a ∈ l, (a.1 = ascii "<" ∨ a.1 = ascii ">" ∨ a.1 = ascii "<=" ∨ a.1 = ascii ">=") ∧
      sameType a.2 s = true ∧ getVar env st.vars s a.2 = a.2) :
    ∃ b, rangeLoop env ev s p (rangeRule l) st = (.ok b, st) ∧
      (b = true ↔ ∀ a ∈ l, a.1 = ascii "<=" ∨ a.1 = ascii ">=") := by
  obtain ⟨b, h1, h2⟩ := range_signs env ev s p st l hl
  refine ⟨b, h1, h2.trans (forall₂_congr fun a ha => ?_)⟩
  have e1 : isLess s a.2 = false := by
    unfold isLess
    split <;> first | rfl | (rename_i h _; first | exact absurd h (hs.1 _) | exact absurd h (hs.2.1 _ _) | exact absurd h (hs.2.2 _))
  have e2 : isLess a.2 s = false := by
    unfold isLess
    split <;> first | rfl | (rename_i _ h; first | exact absurd h (hs.1 _) | exact absurd h (hs.2.1 _ _) | exact absurd h (hs.2.2 _))
  rw [e1, e2]
  unfold signRel
  rcases (hl a ha).1 with h | h | h | h <;> rw [h] <;> simp <;> decide

theorem ltBytes_lex : ∀ a b : Bytes, ltBytes a b = true ↔ a < b
  | [], [] => by simp [ltBytes, cmpBytes]
  | [], _ :: _ => by simp [ltBytes, cmpBytes]
  | _ :: _, [] => by simp [ltBytes, cmpBytes]
  | x :: a, y :: b => by
    have ih := ltBytes_lex a b
    rw [List.cons_lt_cons_iff]
    unfold ltBytes at *
    unfold cmpBytes
    by_cases h1 : x < y
    · simp [h1]
    · by_cases h2 : y < x
      · have : x ≠ y := by omega
        simp [h1, h2, this]
      · have : x = y := by omega
        subst this
        simpa [h1] using ih

/-- **C96 for texts**: texts are compared in lexicographic order of their bytes. -/
theorem C96_texts (env : Valid.Env) (ev : Ev) (s : EV) (t : Bytes) (f : Bool) (p : Valid.Path) (st : St) (l : List (Bytes × EV))
    (hs : s.sh = .str t f)
    (hl : ∀ a ∈ l, (a.1 = ascii "<" ∨ a.1 = ascii ">" ∨ a.1 = ascii "<=" ∨ a.1 = ascii ">=") ∧
      ∃ u g, a.2.sh = .str u g) :
    ∃ b, rangeLoop env ev s p (rangeRule l) st = (.ok b, st) ∧
      (b = true ↔ ∀ a ∈ l, ∀ u g, a.2.sh = .str u g → signRel a.1 (t < u) (u < t)) := by
  obtain ⟨b, h1, h2⟩ := range_signs env ev s p st l (fun a ha => by
    obtain ⟨h, u, g, hy⟩ := hl a ha
    exact ⟨h, by unfold sameType; rw [hs, hy]; rfl, getVar_scalar (by rw [hy]; simp)⟩)
  refine ⟨b, h1, h2.trans (forall₂_congr fun a ha => ?_)⟩
  obtain ⟨-, u, g, hy⟩ := hl a ha
  have e1 : isLess s a.2 = true ↔ t < u := by unfold isLess; rw [hs, hy]; exact ltBytes_lex t u
  have e2 : isLess a.2 s = true ↔ u < t := by unfold isLess; rw [hs, hy]; exact ltBytes_lex u t
  simp only [e1, e2]
  constructor
  · intro h z g' hz
    rw [hy] at hz
    cases hz
    exact h
  · exact fun h => h u g hy

example : (rangeLoop venv (evalRule venv undefV 3) (vs 20 "bc") [] (rangeRule [(ascii ">", vs 2 "bb"), (ascii "<=", vs 3 "bca")]) {}).1 = .ok true ∧
    (rangeLoop venv (evalRule venv undefV 3) (vs 20 "bc") [] (rangeRule [(ascii ">", vs 2 "bb"), (ascii "<=", vs 3 "b")]) {}).1 = .ok false := by
  decide +kernel

/-- **C96 for truth values**: false is below true. -/
theorem C96_booleans (env : Valid.Env) (ev : Ev) (s : EV) (t : Bool) (p : Valid.Path) (st : St) (l : List (Bytes × EV)) (hs : s.sh = .bool t)
    (hl : ∀ a ∈ l, (a.1 = ascii "<" ∨ a.1 = ascii ">" ∨ a.1 = ascii "<=" ∨ a.1 = ascii ">=") ∧ ∃ u, a.2.sh = .bool u) :
    ∃ b, rangeLoop env ev s p (rangeRule l) st = (.ok b, st) ∧
      (b = true ↔ ∀ a ∈ l, ∀ u, a.2.sh = .bool u → signRel a.1 (t = false ∧ u = true) (u = false ∧ t = true)) := by
  obtain ⟨b, h1, h2⟩ := range_signs env ev s p st l (fun a ha => by
    obtain ⟨h, u, hy⟩ := hl a ha
    exact ⟨h, by unfold sameType; rw [hs, hy]; rfl, getVar_scalar (by rw [hy]; simp)⟩)
  refine ⟨b, h1, h2.trans (forall₂_congr fun a ha => ?_)⟩
  obtain ⟨-, u, hy⟩ := hl a ha
  have e1 : isLess s a.2 = true ↔ (t = false ∧ u = true) := by unfold isLess; rw [hs, hy]; simp
  have e2 : isLess a.2 s = true ↔ (u = false ∧ t = true) := by unfold isLess; rw [hs, hy]; simp
  simp only [e1, e2]
  constructor
  · intro h z hz
    rw [hy] at hz
    cases hz
    exact h
  · exact fun h => h u hy

example : (rangeLoop venv (evalRule venv undefV 3) (.node 20 [] false (.bool true) []) [] (rangeRule [(ascii ">", .node 2 [] false (.bool false) [])]) {}).1 = .ok true ∧
    (rangeLoop venv (evalRule venv undefV 3) (.node 20 [] false (.bool true) []) [] (rangeRule [(ascii "<", .node 2 [] false (.bool true) [])]) {}).1 = .ok false := by
  decide +kernel

/-- **C96 for other types**: an operand of a type other than the subject's (after references to variables are replaced) meets no
relation, whatever the sign. -/
theorem C96_type (env : Valid.Env) (ev : Ev) (s : EV) (p : Valid.Path) (st : St) (name : Bytes) (y : EV) (l : List (Bytes × EV))
    (hn : name = ascii "<" ∨ name = ascii ">" ∨ name = ascii "<=" ∨ name = ascii ">=")
    (hy : typeNo (getVar env st.vars s y).sh ≠ typeNo s.sh) :
    rangeLoop env ev s p (rangeRule ((name, y) :: l)) st = (.ok false, st) := by
  have hty : sameType (getVar env st.vars s y) s = false := by
    unfold sameType
    simpa using hy
  have hf : ∃ f, rangeItem (.node 0 [] false (.str name false) []) = .test f ∧ f s (getVar env st.vars s y) = false := by
    rcases hn with rfl | rfl | rfl | rfl <;> exact ⟨_, rfl, by simp [hty]⟩
  obtain ⟨f, h1, h2⟩ := hf
  have : rangeRule ((name, y) :: l) = .node 0 [] false (.str name false) [] :: y :: rangeRule l := by simp [rangeRule]
  rw [this, rangeLoop, h1]
  simp only []
  rw [bind_def]
  simp only [M.get, h2]
  rfl

example : typeNo (getVar venv [] (vs 20 "5") (vn 3 5)).sh ≠ typeNo (vs 20 "5").sh := by decide

/-- **C96 does not hold for large integers of different kinds**: `["<=",9007199254740992]` accepts the signed number
9007199254740993. -/
theorem C96_violation_rounding :
    (evalRule venv undefV 3 (.node 20 [] false (.num (.int 9007199254740993)) [])
      (va 1 [vs 2 "<=", vn 3 9007199254740992]) [] {}).1 = .ok true := by decide +kernel

/-- **C96 does not hold for NaN**: `[">=",5]` and `["<=",5]` accept it. -/
theorem C96_violation_nan :
    (evalRule venv undefV 3 (.node 20 [] false (.num (.dbl 0x7FF8000000000000)) [])
      (va 1 [vs 2 ">=", vn 3 5, vs 4 "<=", vn 5 5]) [] {}).1 = .ok true := by decide +kernel

/-- **C96**: a sign at the end of the rule without an operand rejects every defined subject. -/
theorem C96_no_operand (env : Valid.Env) (ev : Ev) (s : EV) (p : Valid.Path) (st : St) (name : Bytes) (a : Nat)
    (hn : name = ascii "<" ∨ name = ascii ">" ∨ name = ascii "<=" ∨ name = ascii ">=") (hd : typeNo s.sh ≠ typeNo .undef) :
    rangeLoop env ev s p [.node a [] false (.str name false) []] st = (.ok false, st) := by
  have hv : getVar env st.vars s undefV = undefV := rfl
  have hty : sameType undefV s = false := by
    unfold sameType
    simpa [undefV, EV.sh] using fun h => hd h.symm
  have hf : ∃ f, rangeItem (.node a [] false (.str name false) []) = .test f ∧ f s undefV = false := by
    rcases hn with rfl | rfl | rfl | rfl <;> exact ⟨_, rfl, by simp [hty]⟩
  obtain ⟨f, h1, h2⟩ := hf
  rw [rangeLoop, h1]
  simp only []
  rw [bind_def]
  simp only [M.get, hv, h2]
  rfl

example : typeNo (Sh.str [97] false) ≠ typeNo .undef := by decide

end Imt.Props
