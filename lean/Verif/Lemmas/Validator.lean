import Verif.Model.Validator
import Verif.Lemmas.Basic
import Mathlib.Tactic.SplitIfs
/-!
# What the evaluation of rules leaves unchanged
-/
namespace Imt.Valid
open Imt Imt.Eq

@[simp] theorem bind_def {α β : Type} (x : M α) (f : α → M β) (st : St) :
    (x >>= f) st = match x st with
      | (.ok a, st) => f a st
      | (.err, st) => (.err, st)
      | (.ub, st) => (.ub, st)
      | (.abort, st) => (.abort, st)
      | (.fuel, st) => (.fuel, st) := rfl

@[simp] theorem pure_def {α : Type} (a : α) (st : St) : (pure a : M α) st = (.ok a, st) := rfl

/-- Variables are the same, rejections are kept. -/
def Keep (st st' : St) : Prop := st'.vars = st.vars ∧ st.rej <+: st'.rej

theorem Keep.refl (st : St) : Keep st st := ⟨rfl, List.prefix_refl _⟩
theorem Keep.trans {a b c : St} (h1 : Keep a b) (h2 : Keep b c) : Keep a c :=
  ⟨h2.1.trans h1.1, h1.2.trans h2.2⟩

/-- Calls that return keep the relation. -/
def Pres {α : Type} (x : M α) : Prop := ∀ st a st', x st = (.ok a, st') → Keep st st'

theorem pres_pure {α : Type} (a : α) : Pres (pure a : M α) := by
  intro st b st' h
  simp only [pure_def, Prod.mk.injEq] at h
  rw [← h.2]; exact Keep.refl _

theorem pres_lift {α : Type} (r : Res α) : Pres (M.lift r) := by
  intro st b st' h
  simp only [M.lift, Prod.mk.injEq] at h
  rw [← h.2]; exact Keep.refl _

theorem pres_get : Pres M.get := by
  intro st b st' h
  simp only [M.get, Prod.mk.injEq] at h
  rw [← h.2]; exact Keep.refl _

theorem bind_ok_inv {α β : Type} {x : M α} {f : α → M β} {st : St} {b : β} {st' : St}
    (h : (x >>= f) st = (.ok b, st')) : ∃ a st1, x st = (.ok a, st1) ∧ f a st1 = (.ok b, st') := by
  rw [bind_def] at h
  rcases hx : x st with ⟨r, st1⟩
  rw [hx] at h
  cases r with
  | ok a => exact ⟨a, st1, rfl, h⟩
  | err => simp at h
  | ub => simp at h
  | abort => simp at h
  | fuel => simp at h

theorem pres_bind {α β : Type} {x : M α} {f : α → M β} (hx : Pres x) (hf : ∀ a, Pres (f a)) : Pres (x >>= f) := by
  intro st b st' h
  obtain ⟨a, st1, h1, h2⟩ := bind_ok_inv h
  exact (hx _ _ _ h1).trans (hf a _ _ _ h2)

theorem pres_ite {α : Type} {c : Prop} [Decidable c] {x y : M α} (h1 : Pres x) (h2 : Pres y) :
    Pres (if c then x else y) := by
  split
  · exact h1
  · exact h2

theorem pres_newStr (s : Bytes) : Pres (newStr s) := by
  intro st b st' h
  simp only [newStr, Prod.mk.injEq] at h
  rw [← h.2]; exact ⟨rfl, List.prefix_refl _⟩

theorem pres_newNum (n : Num) : Pres (newNum n) := by
  intro st b st' h
  simp only [newNum, Prod.mk.injEq] at h
  rw [← h.2]; exact ⟨rfl, List.prefix_refl _⟩

theorem pres_newStrArr (l : List Bytes) : Pres (newStrArr l) := by
  intro st b st' h
  simp only [newStrArr, Prod.mk.injEq] at h
  rw [← h.2]; exact ⟨rfl, List.prefix_refl _⟩

theorem pres_addRejDef (env : Env) (p : Path) (r : EV) : Pres (addRejDef env p r) := by
  intro st b st' h
  unfold addRejDef at h
  split_ifs at h <;> simp only [Prod.mk.injEq] at h <;> rw [← h.2]
  · exact Keep.refl _
  · exact ⟨rfl, List.prefix_refl _⟩
  · exact ⟨rfl, List.prefix_append _ _⟩

theorem pres_addRej (env : Env) (p : Path) (r : EV) : Pres (addRej env p r) := by
  unfold addRej
  split
  · exact pres_bind (pres_newStr _) fun u => pres_addRejDef _ _ _
  · exact pres_addRejDef _ _ _

/-- The truncation after an accepted rule. -/
theorem keep_trunc {st st' : St} (h : Keep st st') :
    Keep st { st' with rej := st'.rej.take st.rej.length } ∧ st'.rej.take st.rej.length = st.rej := by
  obtain ⟨h1, l, h2⟩ := h
  have : st'.rej.take st.rej.length = st.rej := by rw [← h2]; simp
  exact ⟨⟨h1, by simp [this]⟩, this⟩

section
variable {env : Env} {ev : Ev} (hev : ∀ s r p, Pres (ev s r p))
include hev

theorem pres_alts (s : EV) (p : Path) (l : List EV) : Pres (alts ev s p l) := by
  induction l with
  | nil => exact pres_pure _
  | cons v t ih =>
    refine pres_bind (hev _ _ _) fun b => ?_
    split
    · exact pres_pure _
    · exact ih

theorem pres_alternatives (s rule : EV) (off : Nat) (p : Path) : Pres (alternatives ev s rule off p) :=
  pres_alts hev _ _ _

theorem pres_subAlts (s rule : EV) (i off : Nat) (p : Path) : Pres (subAlts env ev s rule i off p) := by
  intro st b st' h
  obtain ⟨a, st1, h1, h2⟩ := bind_ok_inv h
  simp only [M.get, Prod.mk.injEq, Res.ok.injEq] at h1
  obtain ⟨rfl, rfl⟩ := h1
  obtain ⟨b1, st2, h3, h4⟩ := bind_ok_inv h2
  have k := pres_alternatives hev _ _ _ _ _ _ _ h3
  split at h4
  · exact k.trans (pres_bind (pres_addRej _ _ _) (fun _ => pres_pure _) _ _ _ h4)
  · obtain ⟨u, st3, h5, h6⟩ := bind_ok_inv h4
    simp only [truncRej, M.modify, Prod.mk.injEq] at h5
    simp only [pure_def, Prod.mk.injEq] at h6
    rw [← h6.2, ← h5.2]
    exact (keep_trunc k).1

theorem pres_tupleLoop (s rule : EV) (off : Nat) (p : Path) (n i : Nat) : Pres (tupleLoop ev s rule off p n i) := by
  induction n generalizing i with
  | zero => exact pres_pure _
  | succ n ih =>
    refine pres_bind (hev _ _ _) fun b => ?_
    split
    · exact pres_pure _
    · exact ih _

theorem pres_restLoop (rule : EV) (off : Nat) (p : Path) (l : List EV) (i : Nat) :
    Pres (restLoop env ev rule off p l i) := by
  induction l generalizing i with
  | nil => exact pres_pure _
  | cons x t ih =>
    refine pres_bind (pres_subAlts hev _ _ _ _ _) fun b => ?_
    split
    · exact pres_pure _
    · exact ih _

theorem pres_evalRuleArray (s rule : EV) (n off : Nat) (p : Path) : Pres (evalRuleArray env ev s rule n off p) := by
  unfold evalRuleArray
  split
  · exact pres_pure _
  · refine pres_bind (pres_tupleLoop hev _ _ _ _ _ _) fun b => ?_
    split
    · exact pres_pure _
    · exact pres_restLoop hev _ _ _ _ _

theorem pres_rangeLoop (s : EV) (p : Path) : ∀ (n : Nat) (l : List EV), l.length ≤ n → Pres (rangeLoop env ev s p l) := by
  intro n
  induction n with
  | zero =>
    intro l hl
    obtain rfl := List.length_eq_zero_iff.1 (Nat.le_zero.1 hl)
    unfold rangeLoop; exact pres_pure _
  | succ n ih =>
    intro l hl
    cases l with
    | nil => unfold rangeLoop; exact pres_pure _
    | cons v rest =>
      have hr : rest.length ≤ n := by simpa using hl
      unfold rangeLoop
      split
      · exact ih _ hr
      · cases rest with
        | nil => exact pres_bind pres_get fun _ => pres_pure _
        | cons o rest =>
          refine pres_bind pres_get fun _ => ?_
          split
          · exact ih _ (by simp at hr; omega)
          · exact pres_pure _
      · refine pres_bind (hev _ _ _) fun b => ?_
        split
        · exact pres_pure _
        · exact ih _ hr

theorem pres_memberEval (s t : EV) (k : Bytes) (p : Path) (cont : M Bool) (hc : Pres cont) :
    Pres (memberEval env ev s t k p cont) := by
  refine pres_bind (hev _ _ _) fun b => ?_
  split
  · exact pres_bind (pres_addRej _ _ _) fun _ => pres_pure _
  · exact hc

theorem pres_objRestS (wild : EV) (p : Path) (l : List EV) : Pres (objRestS env ev wild p l) := by
  induction l with
  | nil => exact pres_pure _
  | cons s t ih => exact pres_memberEval hev _ _ _ _ _ ih

theorem pres_objRestT (p : Path) (l : List EV) : Pres (objRestT env ev p l) := by
  induction l with
  | nil => exact pres_pure _
  | cons s t ih => exact pres_memberEval hev _ _ _ _ _ ih

theorem pres_objLoop (wild : EV) (p : Path) (n : Nat) (ss ts : List EV) : Pres (objLoop env ev wild p n ss ts) := by
  induction n generalizing ss ts with
  | zero => exact pres_lift _
  | succ n ih =>
    cases ss with
    | nil =>
      cases ts with
      | nil => exact pres_objRestS hev _ _ _
      | cons t ts => exact pres_objRestT hev _ _
    | cons s ss =>
      cases ts with
      | nil => exact pres_objRestS hev _ _ _
      | cons t ts =>
        unfold objLoop
        dsimp only
        split_ifs <;> first | exact ih _ _ | exact pres_memberEval hev _ _ _ _ _ (ih _ _)

theorem pres_evalRuleObject (s tpl : EV) (p : Path) : Pres (evalRuleObject env ev s tpl p) := by
  unfold evalRuleObject
  split
  · exact pres_pure _
  · exact pres_objLoop hev _ _ _ _ _

theorem pres_evalRuleSimple (df s : EV) (name : Bytes) (p : Path) : Pres (evalRuleSimple env ev df s name p) := by
  unfold evalRuleSimple
  split
  · exact pres_pure _
  · split_ifs
    · exact pres_pure _
    · exact pres_pure _
    · exact pres_lift _
    · exact pres_pure _
    · split
      · exact pres_pure _
      · unfold checkClass
        split_ifs
        · exact pres_lift _
        · exact pres_pure _
        · exact hev _ _ _

theorem pres_opSetVar (s args : EV) (p : Path) : Pres (opSetVar env ev s args p) := by
  unfold opSetVar
  split
  · intro st b st' h
    obtain ⟨_, st1, h1, h2⟩ := bind_ok_inv h
    obtain ⟨r, st2, h3, h4⟩ := bind_ok_inv h2
    obtain ⟨_, st3, h5, h6⟩ := bind_ok_inv h4
    simp only [pushVar, Prod.mk.injEq] at h1
    simp only [popVar, M.modify, Prod.mk.injEq] at h5
    simp only [pure_def, Prod.mk.injEq] at h6
    have k := pres_alternatives hev _ _ _ _ _ _ _ h3
    rw [← h6.2, ← h5.2]
    rw [← h1.2] at k
    obtain ⟨k1, k2⟩ := k
    exact ⟨by simp only [k1, List.tail_cons], k2⟩
  · exact pres_pure _

theorem pres_opEmit (s args : EV) (p : Path) : Pres (opEmit env ev s args p) := by
  refine pres_bind (hev _ _ _) fun r => ?_
  split
  · refine pres_bind ?_ fun _ => pres_pure _
    intro st b st' h
    simp only [M.modify, Prod.mk.injEq] at h
    rw [← h.2]; exact ⟨rfl, List.prefix_refl _⟩
  · exact pres_pure _

theorem pres_opPrefix (s args x : EV) (p : Path) : Pres (opPrefix env ev s args x p) := by
  unfold opPrefix
  refine pres_ite (pres_ite (pres_pure _) (pres_ite (pres_alternatives hev _ _ _ _) (pres_pure _)))
    (pres_ite (pres_pure _) (pres_ite (pres_bind (pres_newStr _) fun v => pres_alternatives hev _ _ _ _) (pres_pure _)))

theorem pres_opSuffix (s args x : EV) (p : Path) : Pres (opSuffix env ev s args x p) := by
  unfold opSuffix
  refine pres_ite (pres_ite (pres_pure _) (pres_ite (pres_alternatives hev _ _ _ _) (pres_pure _)))
    (pres_ite (pres_pure _) (pres_ite (pres_pure _)
      (pres_ite (pres_bind (pres_newStr _) fun v => pres_alternatives hev _ _ _ _) (pres_pure _))))

theorem pres_evalToken (s rule : EV) (token : Bytes) (p : Path) : Pres (evalToken env ev s rule token p) := by
  refine pres_bind pres_get fun st => ?_
  refine pres_ite (pres_pure _) ?_
  refine pres_ite (pres_pure _) ?_
  refine pres_ite (pres_bind (pres_newStr _) fun v => pres_alternatives hev _ _ _ _) ?_
  refine pres_ite (pres_bind (pres_newStr _) fun v => pres_alternatives hev _ _ _ _) ?_
  refine pres_ite (pres_bind (pres_newNum _) fun v => pres_alternatives hev _ _ _ _) ?_
  refine pres_ite (pres_opPrefix hev _ _ _ _) ?_
  refine pres_ite (pres_opSuffix hev _ _ _ _) ?_
  refine pres_ite (pres_bind (hev _ _ _) fun b => pres_ite (hev _ _ _) (pres_pure _)) ?_
  refine pres_ite (pres_bind (pres_newStrArr _) fun v => hev _ _ _) ?_
  refine pres_ite (pres_rangeLoop hev _ _ _ _ (Nat.le_refl _)) ?_
  refine pres_ite (pres_rangeLoop hev _ _ _ _ (Nat.le_refl _)) ?_
  refine pres_ite (pres_pure _) ?_
  refine pres_ite (pres_bind (pres_alternatives hev _ _ _ _) fun _ => pres_pure _) ?_
  refine pres_ite (pres_opSetVar hev _ _ _) ?_
  refine pres_ite (pres_bind pres_get fun st => pres_ite (pres_alternatives hev _ _ _ _) (pres_pure _)) ?_
  refine pres_ite (pres_opEmit hev _ _ _) ?_
  exact pres_ite (pres_pure _) (pres_alternatives hev _ _ _ _)

theorem pres_evalBody (df s rule : EV) (p : Path) : Pres (evalBody env ev df s rule p) := by
  unfold evalBody
  split
  · exact pres_evalRuleObject hev _ _ _
  · unfold evalRuleWithParams
    split
    · exact pres_pure _
    · split
      · split_ifs
        · exact pres_evalRuleArray hev _ _ _ _ _
        · exact pres_evalRuleArray hev _ _ _ _ _
        · exact pres_alternatives hev _ _ _ _
      · exact pres_evalToken hev _ _ _ _
      · exact pres_alternatives hev _ _ _ _
  · exact pres_evalRuleSimple hev _ _ _ _
  · exact pres_pure _

/-- One call of `evalRule`: relation, and nothing new is reported by an accepted rule. -/
theorem step_spec (df s rule : EV) (p : Path) {st st' : St} {b : Bool} (h : step env ev df s rule p st = (.ok b, st')) :
    Keep st st' ∧ (b = true → st'.rej = st.rej) := by
  unfold step at h
  split at h
  · simp only [pure_def, Prod.mk.injEq] at h
    rw [← h.2]; exact ⟨Keep.refl _, fun _ => rfl⟩
  · obtain ⟨a, st1, h1, h2⟩ := bind_ok_inv h
    simp only [M.get, Prod.mk.injEq, Res.ok.injEq] at h1
    obtain ⟨rfl, rfl⟩ := h1
    obtain ⟨b1, st2, h3, h4⟩ := bind_ok_inv h2
    have k := pres_evalBody hev _ _ _ _ _ _ _ h3
    unfold finish at h4
    split at h4
    · obtain ⟨_, st3, h5, h6⟩ := bind_ok_inv h4
      simp only [pure_def, Prod.mk.injEq, Res.ok.injEq] at h6
      obtain ⟨rfl, rfl⟩ := h6
      exact ⟨k.trans (pres_addRej _ _ _ _ _ _ h5), fun hh => by simp at hh⟩
    · obtain ⟨_, st3, h5, h6⟩ := bind_ok_inv h4
      simp only [pure_def, Prod.mk.injEq, Res.ok.injEq] at h6
      obtain ⟨rfl, rfl⟩ := h6
      simp only [truncRej, M.modify, Prod.mk.injEq] at h5
      obtain ⟨_, rfl⟩ := h5
      exact ⟨(keep_trunc k).1, fun _ => (keep_trunc k).2⟩
end

theorem evalRule_spec (env : Env) (df : EV) (n : Nat) : ∀ (s rule : EV) (p : Path) {st st' : St} {b : Bool},
    evalRule env df n s rule p st = (.ok b, st') → Keep st st' ∧ (b = true → st'.rej = st.rej) := by
  induction n with
  | zero => intro s rule p st st' b h; simp [evalRule, M.lift] at h
  | succ n ih =>
    intro s rule p st st' b h
    exact step_spec (ev := evalRule env df n) (fun s r p st a st' h => (ih s r p h).1) df s rule p h

end Imt.Valid
