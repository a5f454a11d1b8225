import Verif.Lemmas.Validator
/-!
# Depth of the recursion of the validator
-/
namespace Imt.Valid
open Imt Imt.Eq

/-- Whatever the first call returns without running out of fuel, the second returns as well. -/
def Sim {α : Type} (x y : M α) : Prop := ∀ st, (x st).1 ≠ .fuel → y st = x st

theorem sim_refl {α : Type} (x : M α) : Sim x x := fun _ _ => rfl

theorem sim_bind {α β : Type} {x y : M α} {f g : α → M β} (h : Sim x y) (hf : ∀ a, Sim (f a) (g a)) :
    Sim (x >>= f) (y >>= g) := by
  intro st hst
  rw [bind_def] at hst ⊢
  rw [bind_def]
  rcases hx : x st with ⟨r, st1⟩
  rw [hx] at hst
  have hy : y st = x st := h st (by rw [hx]; intro hh; subst hh; exact hst rfl)
  rw [hy, hx]
  cases r with
  | ok a => exact hf a st1 hst
  | err => rfl
  | ub => rfl
  | abort => rfl
  | fuel => rfl

theorem sim_ite {α : Type} {c : Prop} [Decidable c] {x y x' y' : M α} (h1 : Sim x x') (h2 : Sim y y') :
    Sim (if c then x else y) (if c then x' else y') := by
  split
  · exact h1
  · exact h2

section
variable {env : Env} {ev ev' : Ev} (hev : ∀ s r p, Sim (ev s r p) (ev' s r p))
include hev

theorem sim_alts (s : EV) (p : Path) (l : List EV) : Sim (alts ev s p l) (alts ev' s p l) := by
  induction l with
  | nil => exact sim_refl _
  | cons v t ih => exact sim_bind (hev _ _ _) fun b => sim_ite (sim_refl _) ih

theorem sim_alternatives (s rule : EV) (off : Nat) (p : Path) :
    Sim (alternatives ev s rule off p) (alternatives ev' s rule off p) := sim_alts hev _ _ _

theorem sim_subAlts (s rule : EV) (i off : Nat) (p : Path) :
    Sim (subAlts env ev s rule i off p) (subAlts env ev' s rule i off p) :=
  sim_bind (sim_refl _) fun _ => sim_bind (sim_alternatives hev _ _ _ _) fun _ => sim_refl _

theorem sim_tupleLoop (s rule : EV) (off : Nat) (p : Path) (n i : Nat) :
    Sim (tupleLoop ev s rule off p n i) (tupleLoop ev' s rule off p n i) := by
  induction n generalizing i with
  | zero => exact sim_refl _
  | succ n ih => exact sim_bind (hev _ _ _) fun b => sim_ite (sim_refl _) (ih _)

theorem sim_restLoop (rule : EV) (off : Nat) (p : Path) (l : List EV) (i : Nat) :
    Sim (restLoop env ev rule off p l i) (restLoop env ev' rule off p l i) := by
  induction l generalizing i with
  | nil => exact sim_refl _
  | cons x t ih => exact sim_bind (sim_subAlts hev _ _ _ _ _) fun b => sim_ite (sim_refl _) (ih _)

theorem sim_evalRuleArray (s rule : EV) (n off : Nat) (p : Path) :
    Sim (evalRuleArray env ev s rule n off p) (evalRuleArray env ev' s rule n off p) :=
  sim_ite (sim_refl _) (sim_bind (sim_tupleLoop hev _ _ _ _ _ _) fun b => sim_ite (sim_refl _) (sim_restLoop hev _ _ _ _ _))

theorem sim_rangeLoop (s : EV) (p : Path) : ∀ (n : Nat) (l : List EV), l.length ≤ n →
    Sim (rangeLoop env ev s p l) (rangeLoop env ev' s p l) := by
  intro n
  induction n with
  | zero =>
    intro l hl
    obtain rfl := List.length_eq_zero_iff.1 (Nat.le_zero.1 hl)
    unfold rangeLoop; exact sim_refl _
  | succ n ih =>
    intro l hl
    cases l with
    | nil => unfold rangeLoop; exact sim_refl _
    | cons v rest =>
      have hr : rest.length ≤ n := by simpa using hl
      unfold rangeLoop
      cases rangeItem v with
      | skip => exact ih _ hr
      | test f =>
        cases rest with
        | nil => exact sim_refl _
        | cons o rest =>
          exact sim_bind (sim_refl _) fun _ => sim_ite (ih _ (by simp at hr; omega)) (sim_refl _)
      | rule => exact sim_bind (hev _ _ _) fun b => sim_ite (sim_refl _) (ih _ hr)

theorem sim_memberEval (s t : EV) (k : Bytes) (p : Path) {c c' : M Bool} (hc : Sim c c') :
    Sim (memberEval env ev s t k p c) (memberEval env ev' s t k p c') :=
  sim_bind (hev _ _ _) fun b => sim_ite (sim_refl _) hc

theorem sim_objRestS (wild : EV) (p : Path) (l : List EV) : Sim (objRestS env ev wild p l) (objRestS env ev' wild p l) := by
  induction l with
  | nil => exact sim_refl _
  | cons s t ih => exact sim_memberEval hev _ _ _ _ ih

theorem sim_objRestT (p : Path) (l : List EV) : Sim (objRestT env ev p l) (objRestT env ev' p l) := by
  induction l with
  | nil => exact sim_refl _
  | cons s t ih => exact sim_memberEval hev _ _ _ _ ih

theorem sim_objLoop (wild : EV) (p : Path) (n : Nat) (ss ts : List EV) :
    Sim (objLoop env ev wild p n ss ts) (objLoop env ev' wild p n ss ts) := by
  induction n generalizing ss ts with
  | zero => exact sim_refl _
  | succ n ih =>
    cases ss with
    | nil =>
      cases ts with
      | nil => exact sim_objRestS hev _ _ _
      | cons t ts => exact sim_objRestT hev _ _
    | cons s ss =>
      cases ts with
      | nil => exact sim_objRestS hev _ _ _
      | cons t ts =>
        unfold objLoop
        dsimp only
        exact sim_ite (sim_ite (ih _ _) (sim_memberEval hev _ _ _ _ (ih _ _)))
          (sim_ite (sim_ite (ih _ _) (sim_memberEval hev _ _ _ _ (ih _ _)))
            (sim_ite (ih _ _) (sim_memberEval hev _ _ _ _ (ih _ _))))

theorem sim_evalRuleSimple (df s : EV) (name : Bytes) (p : Path) :
    Sim (evalRuleSimple env ev df s name p) (evalRuleSimple env ev' df s name p) := by
  unfold evalRuleSimple
  cases name with
  | nil => exact sim_refl _
  | cons c t =>
    refine sim_ite (sim_refl _) (sim_ite (sim_refl _) (sim_ite (sim_refl _) ?_))
    cases namedRule env (c :: t) s with
    | some b => exact sim_refl _
    | none => exact sim_ite (sim_refl _) (sim_ite (sim_refl _) (hev _ _ _))

theorem sim_opSetVar (s args : EV) (p : Path) : Sim (opSetVar env ev s args p) (opSetVar env ev' s args p) :=
  sim_ite (sim_bind (sim_refl _) fun _ => sim_bind (sim_alternatives hev _ _ _ _) fun _ => sim_refl _) (sim_refl _)

theorem sim_opPrefix (s args x : EV) (p : Path) : Sim (opPrefix env ev s args x p) (opPrefix env ev' s args x p) :=
  sim_ite (sim_ite (sim_refl _) (sim_ite (sim_alternatives hev _ _ _ _) (sim_refl _)))
    (sim_ite (sim_refl _) (sim_ite (sim_bind (sim_refl _) fun v => sim_alternatives hev _ _ _ _) (sim_refl _)))

theorem sim_opSuffix (s args x : EV) (p : Path) : Sim (opSuffix env ev s args x p) (opSuffix env ev' s args x p) :=
  sim_ite (sim_ite (sim_refl _) (sim_ite (sim_alternatives hev _ _ _ _) (sim_refl _)))
    (sim_ite (sim_refl _) (sim_ite (sim_refl _)
      (sim_ite (sim_bind (sim_refl _) fun v => sim_alternatives hev _ _ _ _) (sim_refl _))))

theorem sim_evalToken (s rule : EV) (token : Bytes) (p : Path) :
    Sim (evalToken env ev s rule token p) (evalToken env ev' s rule token p) := by
  refine sim_bind (sim_refl _) fun st => ?_
  refine sim_ite (sim_refl _) ?_
  refine sim_ite (sim_refl _) ?_
  refine sim_ite (sim_bind (sim_refl _) fun v => sim_alternatives hev _ _ _ _) ?_
  refine sim_ite (sim_bind (sim_refl _) fun v => sim_alternatives hev _ _ _ _) ?_
  refine sim_ite (sim_bind (sim_refl _) fun v => sim_alternatives hev _ _ _ _) ?_
  refine sim_ite (sim_opPrefix hev _ _ _ _) ?_
  refine sim_ite (sim_opSuffix hev _ _ _ _) ?_
  refine sim_ite (sim_bind (hev _ _ _) fun b => sim_ite (hev _ _ _) (sim_refl _)) ?_
  refine sim_ite (sim_bind (sim_refl _) fun v => hev _ _ _) ?_
  refine sim_ite (sim_rangeLoop hev _ _ _ _ (Nat.le_refl _)) ?_
  refine sim_ite (sim_rangeLoop hev _ _ _ _ (Nat.le_refl _)) ?_
  refine sim_ite (sim_refl _) ?_
  refine sim_ite (sim_bind (sim_alternatives hev _ _ _ _) fun _ => sim_refl _) ?_
  refine sim_ite (sim_opSetVar hev _ _ _) ?_
  refine sim_ite (sim_bind (sim_refl _) fun st => sim_ite (sim_alternatives hev _ _ _ _) (sim_refl _)) ?_
  refine sim_ite (sim_bind (hev _ _ _) fun _ => sim_refl _) ?_
  exact sim_ite (sim_refl _) (sim_alternatives hev _ _ _ _)

theorem sim_evalBody (df s rule : EV) (p : Path) : Sim (evalBody env ev df s rule p) (evalBody env ev' df s rule p) := by
  unfold evalBody
  split
  · exact sim_ite (sim_refl _) (sim_objLoop hev _ _ _ _ _)
  · refine sim_ite (sim_refl _) ?_
    split
    · exact sim_ite (sim_evalRuleArray hev _ _ _ _ _) (sim_ite (sim_evalRuleArray hev _ _ _ _ _) (sim_alternatives hev _ _ _ _))
    · exact sim_evalToken hev _ _ _ _
    · exact sim_alternatives hev _ _ _ _
  · exact sim_evalRuleSimple hev _ _ _ _
  · exact sim_refl _

theorem sim_step (df s rule : EV) (p : Path) : Sim (step env ev df s rule p) (step env ev' df s rule p) :=
  sim_ite (sim_refl _) (sim_bind (sim_refl _) fun _ => sim_bind (sim_evalBody hev _ _ _ _) fun _ => sim_refl _)
end

theorem evalRule_succ (env : Env) (df : EV) (n : Nat) (s r : EV) (p : Path) :
    Sim (evalRule env df n s r p) (evalRule env df (n + 1) s r p) := by
  induction n generalizing s r p with
  | zero => intro st h; exact absurd rfl h
  | succ n ih => exact sim_step ih df s r p

theorem evalRule_mono (env : Env) (df : EV) {n m : Nat} (h : n ≤ m) (s r : EV) (p : Path) :
    Sim (evalRule env df n s r p) (evalRule env df m s r p) := by
  induction m with
  | zero => obtain rfl := Nat.le_zero.1 h; exact sim_refl _
  | succ m ih =>
    by_cases hm : n ≤ m
    · intro st hst
      have e := ih hm st hst
      rw [← e]
      exact evalRule_succ env df m s r p st (by rw [e]; exact hst)
    · obtain rfl : n = m + 1 := by omega
      exact sim_refl _

/-! ### Enough fuel -/

/-- The call does not run out of fuel. -/
def NF {α : Type} (x : M α) : Prop := ∀ st, (x st).1 ≠ .fuel

theorem nf_pure {α : Type} (a : α) : NF (pure a : M α) := fun st h => by simp at h
theorem nf_get : NF M.get := fun st h => by simp [M.get] at h
theorem nf_modify (f : St → St) : NF (M.modify f) := fun st h => by simp [M.modify] at h
theorem nf_newStr (s : Bytes) : NF (newStr s) := fun st h => by simp [newStr] at h
theorem nf_newNum (s : Num) : NF (newNum s) := fun st h => by simp [newNum] at h
theorem nf_newStrArr (s : List Bytes) : NF (newStrArr s) := fun st h => by simp [newStrArr] at h
theorem nf_pushVar (n : Bytes) (v : EV) : NF (pushVar n v) := fun st h => by simp [pushVar] at h

theorem nf_bind {α β : Type} {x : M α} {f : α → M β} (h : NF x) (hf : ∀ a, NF (f a)) : NF (x >>= f) := by
  intro st hst
  rw [bind_def] at hst
  rcases hx : x st with ⟨r, st1⟩
  rw [hx] at hst
  cases r with
  | ok a => exact hf a st1 hst
  | err => simp at hst
  | ub => simp at hst
  | abort => simp at hst
  | fuel => exact h st (by rw [hx])

theorem nf_ite {α : Type} {c : Prop} [Decidable c] {x y : M α} (h1 : NF x) (h2 : NF y) : NF (if c then x else y) := by
  split
  · exact h1
  · exact h2

theorem nf_addRejDef (env : Env) (p : Path) (r : EV) : NF (addRejDef env p r) := by
  intro st h
  unfold addRejDef at h
  split_ifs at h <;> simp at h

theorem nf_addRej (env : Env) (p : Path) (r : EV) : NF (addRej env p r) :=
  nf_ite (nf_bind (nf_newStr _) fun _ => nf_addRejDef _ _ _) (nf_addRejDef _ _ _)

theorem rd_cases (buf : List Nat) (off i : Nat) :
    VText.rd buf off i = .ub ∨ ∃ c, VText.rd buf off i = .ok c ∧ off + i < buf.length := by
  unfold VText.rd
  cases h : buf[off + i]? with
  | none => exact .inl rfl
  | some c => exact .inr ⟨c, rfl, (List.getElem?_eq_some_iff.1 h).1⟩

theorem scan_nf (buf : List Nat) (off adjlen x n i : Nat) (h : buf.length < n + i) (hn : 0 < n) :
    VText.scan buf off adjlen x n i ≠ .fuel := by
  induction n generalizing i with
  | zero => omega
  | succ n ih =>
    unfold VText.scan
    split
    · rcases rd_cases buf off (i + 1) with e | ⟨b, e, hb⟩
      · rw [e]; simp
      · rw [e]
        simp only [Res.bind_ok]
        split
        · rcases rd_cases buf off i with e | ⟨a, e, ha⟩
          · rw [e]; simp
          · rw [e]
            simp only [Res.bind_ok]
            rcases rd_cases buf off (i + 2) with e | ⟨c, e, hc⟩
            · rw [e]; simp
            · rw [e]
              simp only [Res.bind_ok]
              split
              · simp
              · exact ih _ (by omega) (by omega)
        · rcases rd_cases buf off i with e | ⟨a, e, ha⟩
          · rw [e]; simp
          · rw [e]
            simp only [Res.bind_ok]
            split
            · simp
            · exact ih _ (by omega) (by omega)
    · simp

theorem tail_nf (buf : List Nat) (off len x n i : Nat) (h : buf.length < n + i) (hn : 0 < n) :
    VText.tail buf off len x n i ≠ .fuel := by
  induction n generalizing i with
  | zero => omega
  | succ n ih =>
    unfold VText.tail
    split
    · rcases rd_cases buf off i with e | ⟨b, e, hb⟩
      · rw [e]; simp
      · rw [e]
        simp only [Res.bind_ok]
        split
        · simp
        · exact ih _ (by omega) (by omega)
    · simp

theorem bind_nf {α β : Type} {x : Res α} {f : α → Res β} (h : x ≠ .fuel) (hf : ∀ a, f a ≠ .fuel) : (x >>= f) ≠ .fuel := by
  cases x with
  | ok a => exact hf a
  | err => simp
  | ub => simp
  | abort => simp
  | fuel => exact absurd rfl h

theorem charLoop_nf (buf : List Nat) (off len : Nat) (neg : Bool) (l : List Nat) :
    VText.charLoop buf off len neg l ≠ .fuel := by
  induction l with
  | nil => simp [VText.charLoop]
  | cons x t ih =>
    refine bind_nf (bind_nf (scan_nf _ _ _ _ _ _ (by omega) (by omega)) fun b => ?_) fun b => ?_
    · split
      · simp
      · exact tail_nf _ _ _ _ _ _ (by omega) (by omega)
    · split
      · simp
      · exact ih

/-- The bounds in the model of `opTestCharset` are never reached. -/
theorem nf_charset (a b : Bytes) : NF (M.lift (VText.opTestCharset a b)) := by
  intro st
  simp only [M.lift]
  unfold VText.opTestCharset
  dsimp only
  split_ifs <;> first | exact charLoop_nf _ _ _ _ _ | simp

/-- Rules that the evaluation of a rule may call: its items, the undefined rule, the class it names. -/
inductive Calls (df : EV) : EV → EV → Prop
  | item {r x} : x ∈ items r → Calls df r x
  | undef {r} : r.sh ≠ .undef → Calls df r undefV
  | cls {r name b} : r.sh = .str name b → Calls df r (member df name)

theorem mem_at' {r : EV} (df : EV) (hr : r.sh ≠ .undef) (i : Nat) : Calls df r (at' r i) := by
  unfold at'
  cases h : (items r)[i]? with
  | none => exact .undef hr
  | some x => exact .item (List.mem_of_getElem? h)

section
variable {env : Env} {ev : Ev}

theorem nf_alts (s : EV) (p : Path) (l : List EV) (h : ∀ r ∈ l, ∀ s p, NF (ev s r p)) : NF (alts ev s p l) := by
  induction l with
  | nil => exact nf_pure _
  | cons v t ih =>
    exact nf_bind (h v (by simp) _ _) fun b => nf_ite (nf_pure _) (ih fun r hr => h r (by simp [hr]))

variable {df rule : EV} (hr : rule.sh ≠ .undef) (hev : ∀ r, Calls df rule r → ∀ s p, NF (ev s r p))
include hr hev

theorem nf_alternatives (s : EV) (off : Nat) (p : Path) : NF (alternatives ev s rule off p) :=
  nf_alts _ _ _ fun r hm => hev r (.item (List.mem_of_mem_drop hm))

theorem nf_subAlts (s : EV) (i off : Nat) (p : Path) : NF (subAlts env ev s rule i off p) :=
  nf_bind nf_get fun _ => nf_bind (nf_alternatives hr hev _ _ _) fun _ =>
    nf_ite (nf_bind (nf_addRej _ _ _) fun _ => nf_pure _) (nf_bind (nf_modify _) fun _ => nf_pure _)

theorem nf_tupleLoop (s : EV) (off : Nat) (p : Path) (n i : Nat) : NF (tupleLoop ev s rule off p n i) := by
  induction n generalizing i with
  | zero => exact nf_pure _
  | succ n ih => exact nf_bind (hev _ (mem_at' df hr _) _ _) fun b => nf_ite (nf_pure _) (ih _)

theorem nf_restLoop (off : Nat) (p : Path) (l : List EV) (i : Nat) : NF (restLoop env ev rule off p l i) := by
  induction l generalizing i with
  | nil => exact nf_pure _
  | cons x t ih => exact nf_bind (nf_subAlts hr hev _ _ _ _) fun b => nf_ite (nf_pure _) (ih _)

theorem nf_evalRuleArray (s : EV) (n off : Nat) (p : Path) : NF (evalRuleArray env ev s rule n off p) :=
  nf_ite (nf_pure _) (nf_bind (nf_tupleLoop hr hev _ _ _ _ _) fun b => nf_ite (nf_pure _) (nf_restLoop hr hev _ _ _ _))

omit hr in
theorem nf_rangeLoop (s : EV) (p : Path) : ∀ (n : Nat) (l : List EV), (∀ x ∈ l, x ∈ items rule) → l.length ≤ n →
    NF (rangeLoop env ev s p l) := by
  intro n
  induction n with
  | zero =>
    intro l _ hl
    obtain rfl := List.length_eq_zero_iff.1 (Nat.le_zero.1 hl)
    unfold rangeLoop; exact nf_pure _
  | succ n ih =>
    intro l hm hl
    cases l with
    | nil => unfold rangeLoop; exact nf_pure _
    | cons v rest =>
      have hr' : rest.length ≤ n := by simpa using hl
      have hm' : ∀ x ∈ rest, x ∈ items rule := fun x hx => hm x (by simp [hx])
      unfold rangeLoop
      cases rangeItem v with
      | skip => exact ih _ hm' hr'
      | test f =>
        cases rest with
        | nil => exact nf_bind nf_get fun _ => nf_pure _
        | cons o rest =>
          exact nf_bind nf_get fun _ =>
            nf_ite (ih _ (fun x hx => hm' x (by simp [hx])) (by simp at hr'; omega)) (nf_pure _)
      | rule => exact nf_bind (hev _ (.item (hm v (by simp))) _ _) fun b => nf_ite (nf_pure _) (ih _ hm' hr')

omit hr in
theorem nf_memberEval (s t : EV) (ht : Calls df rule t) (k : Bytes) (p : Path) {c : M Bool} (hc : NF c) :
    NF (memberEval env ev s t k p c) :=
  nf_bind (hev _ ht _ _) fun b => nf_ite (nf_bind (nf_addRej _ _ _) fun _ => nf_pure _) hc

omit hr in
theorem nf_objRestS (wild : EV) (hw : Calls df rule wild) (p : Path) (l : List EV) : NF (objRestS env ev wild p l) := by
  induction l with
  | nil => exact nf_pure _
  | cons s t ih => exact nf_memberEval hev _ _ hw _ _ ih

omit hr in
theorem nf_objRestT (p : Path) (l : List EV) (hl : ∀ x ∈ l, x ∈ items rule) : NF (objRestT env ev p l) := by
  induction l with
  | nil => exact nf_pure _
  | cons s t ih => exact nf_memberEval hev _ _ (.item (hl s (by simp))) _ _ (ih fun x hx => hl x (by simp [hx]))

omit hr in
theorem nf_objLoop (wild : EV) (hw : Calls df rule wild) (p : Path) (n : Nat) (ss ts : List EV)
    (hts : ∀ x ∈ ts, x ∈ items rule) (hn : ss.length + ts.length < n) : NF (objLoop env ev wild p n ss ts) := by
  induction n generalizing ss ts with
  | zero => omega
  | succ n ih =>
    cases ss with
    | nil =>
      cases ts with
      | nil => exact nf_objRestS hev _ hw _ _
      | cons t ts => exact nf_objRestT hev _ _ hts
    | cons s ss =>
      cases ts with
      | nil => exact nf_objRestS hev _ hw _ _
      | cons t ts =>
        have ht : Calls df rule t := .item (hts t (by simp))
        have hts' : ∀ x ∈ ts, x ∈ items rule := fun x hx => hts x (by simp [hx])
        simp only [List.length_cons] at hn
        have h1 := ih ss (t :: ts) hts (by simp; omega)
        have h2 := ih (s :: ss) ts hts' (by simp; omega)
        have h3 := ih ss ts hts' (by omega)
        unfold objLoop
        dsimp only
        refine nf_ite (nf_ite h1 (nf_memberEval hev _ _ hw _ _ h1))
          (nf_ite (nf_ite h2 (nf_memberEval hev _ _ ht _ _ h2)) (nf_ite h3 (nf_memberEval hev _ _ ht _ _ h3)))

theorem calls_member (k : Bytes) : Calls df rule (member rule k) := by
  unfold member
  split
  · rename_i d h
    cases hf : rule.kids.find? (fun x => x.key == k) with
    | none => exact .undef hr
    | some x => exact .item (by unfold items; rw [h]; exact List.mem_of_find?_eq_some hf)
  · exact .undef hr

theorem nf_opSetVar (s : EV) (p : Path) : NF (opSetVar env ev s rule p) :=
  nf_ite (nf_bind (nf_pushVar _ _) fun _ => nf_bind (nf_alternatives hr hev _ _ _) fun _ =>
    nf_bind (nf_modify _) fun _ => nf_pure _) (nf_pure _)

theorem nf_opPrefix (s x : EV) (p : Path) : NF (opPrefix env ev s rule x p) :=
  nf_ite (nf_ite (nf_pure _) (nf_ite (nf_alternatives hr hev _ _ _) (nf_pure _)))
    (nf_ite (nf_pure _) (nf_ite (nf_bind (nf_newStr _) fun v => nf_alternatives hr hev _ _ _) (nf_pure _)))

theorem nf_opSuffix (s x : EV) (p : Path) : NF (opSuffix env ev s rule x p) :=
  nf_ite (nf_ite (nf_pure _) (nf_ite (nf_alternatives hr hev _ _ _) (nf_pure _)))
    (nf_ite (nf_pure _) (nf_ite (nf_pure _)
      (nf_ite (nf_bind (nf_newStr _) fun v => nf_alternatives hr hev _ _ _) (nf_pure _))))

theorem nf_evalToken (s : EV) (token : Bytes) (p : Path) : NF (evalToken env ev s rule token p) := by
  refine nf_bind nf_get fun st => ?_
  refine nf_ite (nf_pure _) ?_
  refine nf_ite (nf_pure _) ?_
  refine nf_ite (nf_bind (nf_newStr _) fun v => nf_alternatives hr hev _ _ _) ?_
  refine nf_ite (nf_bind (nf_newStr _) fun v => nf_alternatives hr hev _ _ _) ?_
  refine nf_ite (nf_bind (nf_newNum _) fun v => nf_alternatives hr hev _ _ _) ?_
  refine nf_ite (nf_opPrefix hr hev _ _ _) ?_
  refine nf_ite (nf_opSuffix hr hev _ _ _) ?_
  refine nf_ite (nf_bind (hev _ (mem_at' df hr _) _ _) fun b => nf_ite (hev _ (mem_at' df hr _) _ _) (nf_pure _)) ?_
  refine nf_ite (nf_bind (nf_newStrArr _) fun v => hev _ (mem_at' df hr _) _ _) ?_
  refine nf_ite (nf_rangeLoop hev _ _ _ _ (fun x hx => hx) (Nat.le_refl _)) ?_
  refine nf_ite (nf_rangeLoop hev _ _ _ _ (fun x hx => List.mem_of_mem_drop hx) (Nat.le_refl _)) ?_
  refine nf_ite (nf_pure _) ?_
  refine nf_ite (nf_bind (nf_alternatives hr hev _ _ _) fun _ => nf_pure _) ?_
  refine nf_ite (nf_opSetVar hr hev _ _) ?_
  refine nf_ite (nf_bind nf_get fun st => nf_ite (nf_alternatives hr hev _ _ _) (nf_pure _)) ?_
  refine nf_ite (nf_bind (hev _ (mem_at' df hr _) _ _) fun _ =>
    nf_ite (nf_bind (nf_modify _) fun _ => nf_pure _) (nf_pure _)) ?_
  exact nf_ite (nf_pure _) (nf_alternatives hr hev _ _ _)

theorem nf_evalRuleSimple (s : EV) (name : Bytes) (b : Bool) (hn : rule.sh = .str name b) (p : Path) :
    NF (evalRuleSimple env ev df s name p) := by
  unfold evalRuleSimple
  cases name with
  | nil => exact nf_pure _
  | cons c t =>
    refine nf_ite (nf_pure _) (nf_ite (nf_pure _) (nf_ite (nf_ite (nf_charset _ _) (nf_pure _)) ?_))
    cases namedRule env (c :: t) s with
    | some b => exact nf_pure _
    | none => exact nf_ite (fun st h => by simp [M.lift] at h) (nf_ite (nf_pure _) (hev _ (.cls hn) _ _))

theorem nf_evalBody (s : EV) (p : Path) : NF (evalBody env ev df s rule p) := by
  unfold evalBody
  split
  · exact nf_ite (nf_pure _) (nf_objLoop hev _ (calls_member hr hev _) _ _ _ _ (fun x hx => hx) (by omega))
  · refine nf_ite (nf_pure _) ?_
    split
    · exact nf_ite (nf_evalRuleArray hr hev _ _ _ _) (nf_ite (nf_evalRuleArray hr hev _ _ _ _) (nf_alternatives hr hev _ _ _))
    · exact nf_evalToken hr hev _ _ _
    · exact nf_alternatives hr hev _ _ _
  · rename_i name b h
    exact nf_evalRuleSimple hr hev _ _ b h _
  · exact nf_pure _
end

theorem nf_step {env : Env} {ev : Ev} {df rule : EV} (hev : ∀ r, Calls df rule r → ∀ s p, NF (ev s r p)) (s : EV) (p : Path) :
    NF (step env ev df s rule p) := by
  refine nf_ite (nf_pure _) (nf_bind nf_get fun _ => nf_bind ?_ fun _ =>
    nf_ite (nf_bind (nf_addRej _ _ _) fun _ => nf_pure _) (nf_bind (nf_modify _) fun _ => nf_pure _))
  by_cases hr : rule.sh = .undef
  · unfold evalBody
    rw [hr]
    exact nf_pure _
  · exact nf_evalBody hr hev s p

theorem nf_mono {env : Env} {df : EV} {n m : Nat} (h : n ≤ m) {s r : EV} {p : Path} (hn : NF (evalRule env df n s r p)) :
    NF (evalRule env df m s r p) := by
  intro st hst
  rw [evalRule_mono env df h s r p st (hn st)] at hst
  exact hn st hst

theorem enough_list {env : Env} {df : EV} (l : List EV) (h : ∀ r ∈ l, ∃ n, ∀ s p, NF (evalRule env df n s r p)) :
    ∃ n, ∀ r ∈ l, ∀ s p, NF (evalRule env df n s r p) := by
  induction l with
  | nil => exact ⟨0, fun r hr => by simp at hr⟩
  | cons x t ih =>
    obtain ⟨n, hn⟩ := ih fun r hr => h r (by simp [hr])
    obtain ⟨m, hm⟩ := h x (by simp)
    refine ⟨n + m, fun r hr s p => ?_⟩
    rcases List.mem_cons.1 hr with rfl | hr
    · exact nf_mono (by omega) (hm s p)
    · exact nf_mono (by omega) (hn r hr s p)

/-- Rules whose references come to an end have a depth. -/
theorem enough_fuel {env : Env} {df : EV} {r : EV} (h : Acc (fun a b => Calls df b a) r) :
    ∃ n, ∀ s p, NF (evalRule env df n s r p) := by
  induction h with
  | intro r _ ih =>
    obtain ⟨n, hn⟩ := enough_list (env := env) (df := df) (items r) fun x hx => ih x (.item hx)
    by_cases hu : r.sh = .undef
    · refine ⟨1, fun s p => nf_step (fun x hx => ?_) s p⟩
      exfalso
      cases hx with
      | item hm => unfold items at hm; rw [hu] at hm; simp at hm
      | undef hh => exact hh hu
      | cls hh => rw [hu] at hh; simp at hh
    · obtain ⟨m, hm⟩ := ih undefV (.undef hu)
      have : ∃ k, ∀ name b, r.sh = .str name b → ∀ s p, NF (evalRule env df k s (member df name) p) := by
        by_cases hs : ∃ name b, r.sh = .str name b
        · obtain ⟨name, b, hs⟩ := hs
          obtain ⟨k, hk⟩ := ih _ (.cls hs)
          refine ⟨k, fun name' b' hs' => ?_⟩
          rw [hs] at hs'
          cases hs'
          exact hk
        · exact ⟨0, fun name b hh => absurd ⟨name, b, hh⟩ hs⟩
      obtain ⟨k, hk⟩ := this
      refine ⟨n + m + k + 1, fun s p => nf_step (fun x hx => ?_) s p⟩
      intro s p
      cases hx with
      | item hi => exact nf_mono (by omega) (hn x hi s p)
      | undef _ => exact nf_mono (by omega) (hm s p)
      | cls hc => exact nf_mono (by omega) (hk _ _ hc s p)

end Imt.Valid
