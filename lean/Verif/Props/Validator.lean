import Verif.Lemmas.ValidatorTerm
/-!
# The validator: C56 (rejections), C57 (variables), C94 (termination)
-/
namespace Imt.Props
open Imt Imt.Eq Imt.Valid

/-- Functions for the concrete cases. -/
def venv : Valid.Env where
  base := id
  toStr := fun v => match v.sh with | .str s _ => s | _ => []
  precText := fun _ => []
  toNum := fun v => match v.sh with | .num n => n | _ => .zero
  uint := fun v => match v.sh with | .num n => n.getU | _ => 0
  int := fun v => match v.sh with | .num n => n.getI | _ => 0
  splitAt := fun v _ => (v, undefV)
  explode := fun s _ _ => [s]
  native := fun _ _ => false

/-- A string with an address. -/
def vs (a : Nat) (s : String) : EV := .node a [] false (.str (ascii s) false) []
/-- A member that is a string. -/
def vks (a : Nat) (k : Bytes) (s : String) : EV := .node a k false (.str (ascii s) false) []
/-- A number with an address. -/
def vn (a n : Nat) : EV := .node a [] false (.num (.uint n)) []
/-- An array. -/
def va (a : Nat) (l : List EV) : EV := .node a [] false .arr l
/-- A member that is an array. -/
def vka (a : Nat) (k : Bytes) (l : List EV) : EV := .node a k false .arr l
/-- An object. -/
def vo (a : Nat) (l : List EV) : EV := .node a [] false (.obj false) l

/-! ## C57: variables -/

/-- **C57**: a validation that returns leaves the variables as they were, for every definition, subject and rule. -/
theorem C57_scoped_partial (env : Valid.Env) (df : EV) (n : Nat) (s : EV) (name : Bytes) (path : Valid.Path)
    (st st' : St) (b : Bool) (h : validate env df n s name path st = (.ok b, st')) : st'.vars = st.vars := by
  unfold validate at h
  split at h
  · exact (pres_bind (pres_addRej _ _ _) (fun _ => pres_pure _) _ _ _ h).1
  · obtain ⟨u, st1, h1, h2⟩ := bind_ok_inv h
    simp only [M.modify, Prod.mk.injEq] at h1
    have := (evalRule_spec env df n _ _ _ h2).1.1
    rw [this, ← h1.2]

/-- The same for every rule inside. -/
theorem C57_rule_partial (env : Valid.Env) (df : EV) (n : Nat) (s rule : EV) (path : Valid.Path)
    (st st' : St) (b : Bool) (h : evalRule env df n s rule path st = (.ok b, st')) : st'.vars = st.vars :=
  (evalRule_spec env df n _ _ _ h).1.1

/-- **C57, visibility**: the rules below `setvar` are evaluated with the new variable in front of the others: its name
gives the subject, other names give what they gave outside. -/
theorem C57_visible (env : Valid.Env) (ev : Ev) (s args : EV) (p : Valid.Path) (st : St) (name : Bytes)
    (hn : getStr env (at' args 1) = 36 :: name) :
    ∃ st1, opSetVar env ev s args p st = (alternatives ev s args 2 p >>= fun r => popVar >>= fun _ => pure r) st1 ∧
      st1.rej = st.rej ∧
      (∀ this, 36 :: name ≠ ascii "$this" → (findVar st1.vars (36 :: name) this).sh = s.sh ∧
        (findVar st1.vars (36 :: name) this).kids = s.kids) ∧
      (∀ other this, other ≠ 36 :: name → findVar st1.vars other this = findVar st.vars other this) := by
  refine ⟨{ st with vars := .node st.next (36 :: name) s.wrapped s.sh s.kids :: st.vars, next := st.next + 1 }, ?_, rfl, ?_, ?_⟩
  · unfold opSetVar
    rw [hn]
    simp only [List.take_succ_cons, List.take_zero]
    rfl
  · intro this ht
    unfold findVar
    rw [if_neg ht]
    simp [EV.key, EV.sh, EV.kids]
  · intro other this ho
    unfold findVar
    split
    · rfl
    · have : ((EV.node st.next (36 :: name) s.wrapped s.sh s.kids).key == other) = false := by
        simp only [EV.key, beq_eq_false_iff_ne, ne_eq]
        exact fun hh => ho hh.symm
      simp only [List.find?_cons, this]

example : getStr venv (at' (va 1 [vs 2 "setvar", vs 3 "$x", vs 4 "string"]) 1) = 36 :: ascii "x" := by decide

/-- **C57 does not hold when the validation throws**: a reference to an unknown class below `setvar` leaves the variable
behind, and the next validation sees it. -/
theorem C57_violation_throw :
    let df := vo 1 [vka 2 (ascii "_root") [vs 3 "setvar", vs 4 "$x", vs 5 "nosuchclass"],
      vka 6 (ascii "second") [vs 7 "$x"]]
    let r := validate venv df 9 (vn 20 5) (ascii "_root") [] {}
    let r2 := validate venv df 9 (vn 21 5) (ascii "second") [] r.2
    let fresh := validate venv df 9 (vn 21 5) (ascii "second") [] {}
    r.1 = .err ∧ r.2.vars.length = 1 ∧ r2.1 = .ok true ∧ fresh.1 = .err := by
  decide +kernel

/-! ## C56: rejections -/

/-- **C56, the converse**: an accepted subject leaves no rejections. -/
theorem C56_accepted (env : Valid.Env) (df : EV) (n : Nat) (s : EV) (name : Bytes) (path : Valid.Path)
    (st st' : St) (h : validate env df n s name path st = (.ok true, st')) : st'.rej = [] := by
  unfold validate at h
  split at h
  · obtain ⟨u, st1, h1, h2⟩ := bind_ok_inv h
    simp at h2
  · obtain ⟨u, st1, h1, h2⟩ := bind_ok_inv h
    simp only [M.modify, Prod.mk.injEq] at h1
    have := (evalRule_spec env df n _ _ _ h2).2 rfl
    rw [this, ← h1.2]

/-- Rejections reported so far are never dropped by the evaluation of a further rule, and an accepted rule adds none. -/
theorem C56_kept (env : Valid.Env) (df : EV) (n : Nat) (s rule : EV) (path : Valid.Path)
    (st st' : St) (b : Bool) (h : evalRule env df n s rule path st = (.ok b, st')) :
    st.rej <+: st'.rej ∧ (b = true → st'.rej = st.rej) :=
  ⟨(evalRule_spec env df n _ _ _ h).1.2, (evalRule_spec env df n _ _ _ h).2⟩

/-- **C56 where it holds**: a rejected rule other than null, a boolean or a number is reported, unless after the
evaluation of its parts the last rejected rule is equal to it or is one of its items. Missing: those two cases and
literal rules, see the violations. -/
theorem C56_reported_partial (env : Valid.Env) (df : EV) (n : Nat) (s rule : EV) (path : Valid.Path)
    (st st' : St) (hl : isLit rule = false) (hd : rule.sh ≠ .undef)
    (h : evalRule env df (n + 1) s rule path st = (.ok false, st')) :
    ∃ st1, evalBody env (evalRule env df n) df s rule path st = (.ok false, st1) ∧
      (opEq rule st1.last = false → (∀ x ∈ items rule, env.base x.addr ≠ env.base st1.last.addr) →
        st'.rej = st1.rej ++ [(path, rule)]) := by
  simp only [evalRule, step, hl, Bool.false_eq_true, if_false] at h
  obtain ⟨a, st0, h1, h2⟩ := bind_ok_inv h
  simp only [M.get, Prod.mk.injEq, Res.ok.injEq] at h1
  obtain ⟨rfl, rfl⟩ := h1
  obtain ⟨b1, st2, h3, h4⟩ := bind_ok_inv h2
  unfold finish at h4
  split at h4
  · rename_i hb
    subst hb
    refine ⟨st2, h3, fun hq hc => ?_⟩
    obtain ⟨u, st3, h5, h6⟩ := bind_ok_inv h4
    simp only [pure_def, Prod.mk.injEq, true_and] at h6
    subst h6
    unfold addRej at h5
    have hdf : defd rule = true := by unfold defd; simpa using hd
    simp only [hdf, Bool.not_true, Bool.false_eq_true, if_false] at h5
    unfold addRejDef at h5
    have hany : (items rule).any (fun v => isCopyOf env v st2.last) = false := by
      rw [List.any_eq_false]
      intro x hx
      simp only [isCopyOf, beq_iff_eq]
      exact hc x hx
    simp only [hq, hany, Bool.false_eq_true, if_false, Prod.mk.injEq, true_and] at h5
    rw [← h5]
  · obtain ⟨u, st3, h5, h6⟩ := bind_ok_inv h4
    simp at h6

example : isLit (vs 3 "string") = false ∧ (vs 3 "string").sh ≠ .undef ∧
    (evalRule venv undefV 1 (vn 20 5) (vs 3 "string") [] {}).1 = .ok false ∧
    opEq (vs 3 "string") undefV = false := by decide +kernel

/-- **C56 does not hold for literal rules**: null, booleans and numbers are rejected without a word. -/
theorem C56_violation_literal (env : Valid.Env) (df : EV) (n : Nat) (s rule : EV) (path : Valid.Path) (st : St)
    (hl : isLit rule = true) (he : opEq s rule = false) :
    evalRule env df (n + 1) s rule path st = (.ok false, st) := by
  simp [evalRule, step, hl, he]

example : isLit (vn 3 1) = true ∧ opEq (vn 20 5) (vn 3 1) = false := by decide

/-- **C56 does not hold for the second validation** that fails for the same rule. -/
theorem C56_violation_second :
    let df := vo 1 [vks 2 (ascii "_root") "string"]
    let r := validate venv df 9 (vn 20 5) (ascii "_root") [] {}
    let r2 := validate venv df 9 (vn 21 6) (ascii "_root") [] r.2
    r.1 = .ok false ∧ r.2.rej.length = 1 ∧ r2.1 = .ok false ∧ r2.2.rej.length = 0 := by
  decide +kernel

/-- **C56 does not hold for the first validation either**: `[[],["!","string"]]` rejects `[5,"x"]` and reports
nothing. No rule is used twice in the definition. -/
theorem C56_violation_first :
    let df := vo 1 [vka 2 (ascii "_root") [va 3 [], va 4 [vs 5 "!", vs 6 "string"]]]
    let r := validate venv df 9 (va 20 [vn 21 5, vs 22 "x"]) (ascii "_root") [] {}
    r.1 = .ok false ∧ r.2.rej.length = 0 := by
  decide +kernel

/-- A wrong `_version` leaves the rejections of the previous validation in place. -/
theorem C56_violation_version (env : Valid.Env) (df : EV) (n : Nat) (s : EV) (name : Bytes) (path : Valid.Path) (st : St)
    (h1 : defd (member df (ascii "_version")) = true)
    (h2 : deq (env.toNum (member df (ascii "_version"))).dbl' (.fin one) = false) :
    ∃ st', validate env df n s name path st = (.ok false, st') ∧ st.rej <+: st'.rej := by
  have e : validate env df n s name path st =
      (addRej env [.key (ascii "_version")] (member df (ascii "_version")) >>= fun _ => (pure false : M Bool)) st := by
    unfold validate; rw [if_pos ⟨h1, h2⟩]
  have hr : ∃ st', addRej env [.key (ascii "_version")] (member df (ascii "_version")) st = (.ok (), st') := by
    unfold addRej
    simp only [h1, Bool.not_true, Bool.false_eq_true, if_false]
    unfold addRejDef
    split_ifs <;> exact ⟨_, rfl⟩
  obtain ⟨st', hr⟩ := hr
  refine ⟨st', by rw [e, bind_def, hr]; rfl, (pres_addRej _ _ _ _ _ _ hr).2⟩

example : let df := vo 1 [vks 2 (ascii "_root") "string", .node 3 (ascii "_version") false (.num (.uint 2)) []]
    defd (member df (ascii "_version")) = true ∧
    deq (venv.toNum (member df (ascii "_version"))).dbl' (.fin one) = false := by decide +kernel

/-! ## C94: termination -/

/-- **C94**: the outcome does not depend on the bound of the recursion in the model: once an evaluation ends, every
greater bound gives the same result and the same state. -/
theorem C94_deterministic (env : Valid.Env) (df : EV) (n m : Nat) (h : n ≤ m) (s r : EV) (p : Valid.Path) (st : St)
    (hn : (evalRule env df n s r p st).1 ≠ .fuel) : evalRule env df m s r p st = evalRule env df n s r p st :=
  evalRule_mono env df h s r p st hn

example : (evalRule venv undefV 1 (vn 20 5) (vs 3 "string") [] {}).1 ≠ .fuel := by decide +kernel

/-- **C94 where it holds**: when the references between rules (items, named classes) come to an end, the evaluation
ends on every subject, with every variables; the depth depends on the rule only. -/
theorem C94_terminates_partial (env : Valid.Env) (df r : EV) (h : Acc (fun a b => Calls df b a) r) :
    ∃ n, ∀ s p st, (evalRule env df n s r p st).1 ≠ .fuel := by
  obtain ⟨n, hn⟩ := enough_fuel (env := env) h
  exact ⟨n, fun s p st => hn s p st⟩

/-- The hypothesis holds for a definition with two classes, one used by the other. -/
example : let df := vo 1 [vka 2 (ascii "_root") [vs 3 "any", vs 4 "id"], vks 5 (ascii "id") "digits"]
    Acc (fun a b => Calls df b a) (member df (ascii "_root")) := by
  intro df
  have hundef : Acc (fun a b => Calls df b a) undefV := by
    refine Acc.intro _ fun y hy => ?_
    cases hy with
    | item h => simp [items, undefV, EV.sh] at h
    | undef h => exact absurd rfl h
    | cls h => simp [undefV, EV.sh] at h
  have leaf : ∀ (v : EV) (name : Bytes) (b : Bool), v.sh = .str name b → member df name = undefV →
      Acc (fun a b => Calls df b a) v := by
    intro v name b hv hm
    refine Acc.intro _ fun y hy => ?_
    cases hy with
    | item h => unfold items at h; rw [hv] at h; simp at h
    | undef h => exact hundef
    | cls h => rw [hv] at h; cases h; rw [hm]; exact hundef
  have hdig : Acc (fun a b => Calls df b a) (vks 5 (ascii "id") "digits") := leaf _ (ascii "digits") false rfl (by rfl)
  have hany : Acc (fun a b => Calls df b a) (vs 3 "any") := leaf _ (ascii "any") false rfl (by rfl)
  have hid : Acc (fun a b => Calls df b a) (vs 4 "id") := by
    refine Acc.intro _ fun y hy => ?_
    cases hy with
    | item h => simp [items, vs, EV.sh] at h
    | undef h => exact hundef
    | cls h => simp only [vs, EV.sh] at h; cases h; exact hdig
  refine Acc.intro _ fun y hy => ?_
  have e : member df (ascii "_root") = vka 2 (ascii "_root") [vs 3 "any", vs 4 "id"] := rfl
  rw [e] at hy
  cases hy with
  | item h =>
    have h' : y ∈ [vs 3 "any", vs 4 "id"] := h
    simp only [List.mem_cons, List.not_mem_nil, or_false] at h'
    rcases h' with rfl | rfl
    · exact hany
    · exact hid
  | undef h => exact hundef
  | cls h => simp [vka, EV.sh] at h

/-- **C94 does not hold for a class that names itself**: no depth is enough, for any subject. -/
theorem C94_violation_self (env : Valid.Env) (n : Nat) (s : EV) (p : Valid.Path) (st : St) :
    (evalRule env (vo 1 [vks 2 (ascii "_root") "_root"]) n s (vks 2 (ascii "_root") "_root") p st).1 = .fuel := by
  induction n generalizing s p st with
  | zero => rfl
  | succ n ih =>
    have hl : isLit (vks 2 (ascii "_root") "_root") = false := rfl
    have hb : evalBody env (evalRule env (vo 1 [vks 2 (ascii "_root") "_root"]) n) (vo 1 [vks 2 (ascii "_root") "_root"]) s
        (vks 2 (ascii "_root") "_root") p =
        evalRule env (vo 1 [vks 2 (ascii "_root") "_root"]) n s (vks 2 (ascii "_root") "_root") p := by
      have hnr : namedRule env (ascii "_root") s = none := by
        unfold namedRule
        rw [if_neg (by decide), if_neg (by decide), if_neg (by decide), if_neg (by decide), if_neg (by decide),
          if_neg (by decide), if_neg (by decide), if_neg (by decide), if_neg (by decide), if_neg (by decide),
          if_neg (by decide), if_neg (by decide), if_neg (by decide), if_neg (by decide), if_neg (by decide),
          if_neg (by decide), if_neg (by decide), if_neg (by decide), if_neg (by decide), if_neg (by decide),
          if_neg (by decide), if_neg (by decide), if_neg (by decide), if_neg (by decide), if_neg (by decide)]
      have hc : checkClass env (evalRule env (vo 1 [vks 2 (ascii "_root") "_root"]) n) (vo 1 [vks 2 (ascii "_root") "_root"]) s
          (ascii "_root") p = evalRule env (vo 1 [vks 2 (ascii "_root") "_root"]) n s (vks 2 (ascii "_root") "_root") p := by
        unfold checkClass
        have hm : member (vo 1 [vks 2 (ascii "_root") "_root"]) (ascii "_root") = vks 2 (ascii "_root") "_root" := by rfl
        rw [hm, if_neg (by decide)]
        have hs : getStr env (vks 2 (ascii "_root") "_root") = ascii "_root" := rfl
        rw [hs, if_neg (by decide)]
      have he : ∀ (ev : Ev) (df : EV), evalBody env ev df s (vks 2 (ascii "_root") "_root") p =
          evalRuleSimple env ev df s (ascii "_root") p := fun _ _ => rfl
      rw [he]
      have ha : ascii "_root" = [95, 114, 111, 111, 116] := by decide
      have hes : ∀ (ev : Ev) (df : EV), evalRuleSimple env ev df s (ascii "_root") p =
          (match namedRule env (ascii "_root") s with
            | some b => pure b
            | none => checkClass env ev df s (ascii "_root") p) := by
        intro ev df
        rw [ha]
        unfold evalRuleSimple
        dsimp only
        rw [if_neg (by decide), if_neg (by decide), if_neg (by decide)]
        rfl
      rw [hes, hnr]
      exact hc
    simp only [evalRule, step, hl, Bool.false_eq_true, if_false]
    rw [bind_def]
    simp only [M.get]
    rw [bind_def, hb]
    have := ih s p st
    rcases hx : evalRule env (vo 1 [vks 2 (ascii "_root") "_root"]) n s (vks 2 (ascii "_root") "_root") p st with ⟨r, st1⟩
    rw [hx] at this
    simp only at this
    subst this
    rfl

end Imt.Props
