import Verif.Model.ArrayWorld
import Verif.Props.ArrayB
/-! # Array builders are independent values: C156 -/
namespace Imt.Props
open Imt Imt.ArrB Imt.Spec Imt.ArrW

variable {α : Type}

/-- What a program can do with its array builders. -/
inductive AWOp (α : Type) where
  | make (b : List α)
  | makeList (l : List α)
  | copy (i : Nat)
  | assign (i j : Nat)
  | move (i : Nat)
  | moveAssign (i j : Nat)
  | edit (i : Nat) (op : LOp α)
  | size (i : Nat)
  | item (i p : Nat)
  | commit (i : Nat)

/-- What the program sees. -/
inductive AWOut (α : Type) where
  | nothing
  | size (n : Nat)
  | item (v : α)
  | outOfRange
  | array (l : List α)
deriving DecidableEq

/-- Specification: a builder is a pair of lists (what it started from, what it holds), or was moved away. -/
abbrev AWSpec (α : Type) := List (Option (List α × List α))

/-- Only builders that were not moved away are used; one that was may be assigned to. Values are made of defined items. -/
def AWOp.Ok (isDef : α → Bool) (w : AWSpec α) : AWOp α → Prop
  | .make b => ∀ v ∈ b, isDef v = true
  | .makeList _ => True
  | .copy i | .move i | .size i | .item i _ | .commit i => ∃ x, w[i]? = some (some x)
  | .assign i j | .moveAssign i j => i < w.length ∧ ∃ x, w[j]? = some (some x)
  | .edit i op => ∃ x, w[i]? = some (some x) ∧ op.InRange x.2

/-- Effect and answer according to the specification. -/
def AWOp.eff (isDef : α → Bool) (w : AWSpec α) : AWOp α → AWSpec α × AWOut α
  | .make b => (w ++ [some (b, b)], .nothing)
  | .makeList l => (w ++ [some ([], l)], .nothing)
  | .copy i => (w ++ [w[i]?.getD none], .nothing)
  | .assign i j => (w.set i (w[j]?.getD none), .nothing)
  | .move i => (w.set i none ++ [w[i]?.getD none], .nothing)
  | .moveAssign i j => (if i = j then w else (w.set j none).set i (w[j]?.getD none), .nothing)
  | .edit i op => (w.set i ((w[i]?.getD none).map op.run), .nothing)
  | .size i => (w, match w[i]? with | some (some x) => .size x.2.length | _ => .nothing)
  | .item i p => (w, match w[i]? with
      | some (some x) => (match x.2[p]? with | some v => .item v | none => .outOfRange)
      | _ => .nothing)
  | .commit i => (w, match w[i]? with | some (some x) => .array (x.2.filter isDef) | _ => .nothing)

/-- A legal program. -/
def AWLegal (isDef : α → Bool) : List (AWOp α) → AWSpec α → Prop
  | [], _ => True
  | o :: os, w => o.Ok isDef w ∧ AWLegal isDef os (o.eff isDef w).1

/-- The answers and the builders at the end. -/
def awSpec (isDef : α → Bool) : List (AWOp α) → AWSpec α → List (AWOut α) × AWSpec α
  | [], w => ([], w)
  | o :: os, w => let r := awSpec isDef os (o.eff isDef w).1; ((o.eff isDef w).2 :: r.1, r.2)

/-- The function of the model behind each list operation. -/
def runMB (u : α) : LOp α → MB α → Res (MB α)
  | .add v, s => .ok (ArrW.add s v)
  | .addSet vs, s => .ok (ArrW.addSet s vs)
  | .insert p v, s => ArrW.insert u s p v
  | .erase p, s => ArrW.erase u s p
  | .eraseSet p n, s => ArrW.eraseSet u s p n
  | .set p v, s => ArrW.set u s p v
  | .trunc p, s => ArrW.trunc s p
  | .setSize n v, s => ArrW.setSize s n v
  | .clear, s => .ok (ArrW.clear s)
  | .revert, s => ArrW.revert s
  | .reverse, s => ArrW.reverse u s

/-- One operation of the program on the builders of the model. -/
def awStep (isDef : α → Bool) (u : α) (w : World α) : AWOp α → Res (World α × AWOut α)
  | .make b => .ok (w ++ [live (ArrB.ofBase b)], .nothing)
  | .makeList l => .ok (w ++ [live (ArrB.ofList l)], .nothing)
  | .copy i => do let w ← copyNew w i; pure (w, .nothing)
  | .assign i j => do let w ← copyAssign w i j; pure (w, .nothing)
  | .move i => do let w ← moveNew w i; pure (w, .nothing)
  | .moveAssign i j => do let w ← moveAssign w i j; pure (w, .nothing)
  | .edit i op => match w[i]? with
    | some s => do let s ← runMB u op s; pure (w.set i s, .nothing)
    | none => .ub
  | .size i => match w[i]? with
    | some s => .ok (w, .size (ArrW.size s))
    | none => .ub
  | .item i p => match w[i]? with
    | some s => match ArrW.get u s p with
      | .ok v => .ok (w, .item v)
      | .err => .ok (w, .outOfRange)
      | .ub => .ub | .abort => .abort | .fuel => .fuel
    | none => .ub
  | .commit i => match w[i]? with
    | some s => do let l ← ArrW.commit isDef u s; pure (w, .array l)
    | none => .ub

/-- A program. -/
def awRun (isDef : α → Bool) (u : α) : List (AWOp α) → World α → Res (List (AWOut α) × World α)
  | [], w => .ok ([], w)
  | o :: os, w => do
    let r ← awStep isDef u w o
    let t ← awRun isDef u os r.1
    pure (r.2 :: t.1, t.2)

/-! ## Live builders are the builders of C32 -/

theorem revLoop_live (u : α) (s : AB α) : ∀ (n : Nat) (out : AB α), ArrW.revLoop u (live s) n out = ArrB.revLoop u s n out
  | 0, _ => rfl
  | n + 1, out => by
    rw [ArrW.revLoop, ArrB.revLoop]
    have : ArrW.get u (live s) n = ArrB.get u s n := by simp [ArrW.get, live]
    rw [this]
    cases ArrB.get u s n with
    | ok v => exact revLoop_live u s n _
    | _ => rfl

theorem runMB_live (u : α) (op : LOp α) (s : AB α) : runMB u op (live s) = (runB u op s).bind fun b => .ok (live b) := by
  cases op with
  | reverse =>
    simp only [runMB, runB, ArrW.reverse, ArrB.reverse, revLoop_live]
    rfl
  | _ => rfl

/-- The builder shows the pair of lists. -/
def AWRep (isDef : α → Bool) (s : MB α) : Option (List α × List α) → Prop
  | some x => s.null = false ∧ Rep s.b x.1 x.2 ∧ ∀ v ∈ x.1, isDef v = true
  | none => True

/-- All builders do. -/
def AWInv (isDef : α → Bool) (w : World α) (m : AWSpec α) : Prop :=
  w.length = m.length ∧ ∀ (i : Nat) (s : MB α) (x : Option (List α × List α)), w[i]? = some s → m[i]? = some x → AWRep isDef s x

theorem AWInv.app {isDef : α → Bool} {w : World α} {m : AWSpec α} (h : AWInv isDef w m) {s : MB α} {x : Option (List α × List α)}
    (hs : AWRep isDef s x) : AWInv isDef (w ++ [s]) (m ++ [x]) := by
  refine ⟨by simp [h.1], fun i t y ht hy => ?_⟩
  rw [List.getElem?_append] at ht hy
  rw [h.1] at ht
  split at ht
  · rename_i hi
    rw [if_pos hi] at hy
    exact h.2 i t y ht hy
  · rename_i hi
    rw [if_neg hi] at hy
    rw [List.getElem?_singleton] at ht hy
    split at ht
    · rename_i h0
      rw [if_pos h0] at hy
      cases ht; cases hy; exact hs
    · cases ht

theorem AWInv.put {isDef : α → Bool} {w : World α} {m : AWSpec α} (h : AWInv isDef w m) (k : Nat) {s : MB α}
    {x : Option (List α × List α)} (hs : AWRep isDef s x) : AWInv isDef (w.set k s) (m.set k x) := by
  refine ⟨by simp [h.1], fun i t y ht hy => ?_⟩
  rw [List.getElem?_set] at ht hy
  by_cases hk : k = i
  · rw [if_pos hk] at ht hy
    split at ht
    · split at hy
      · cases ht; cases hy; exact hs
      · cases hy
    · cases ht
  · rw [if_neg hk] at ht hy
    exact h.2 i t y ht hy

theorem AWInv.at {isDef : α → Bool} {w : World α} {m : AWSpec α} (h : AWInv isDef w m) {i : Nat} {x : Option (List α × List α)}
    (hx : m[i]? = some x) : ∃ s, w[i]? = some s ∧ AWRep isDef s x := by
  have hi : i < m.length := by
    rw [List.getElem?_eq_some_iff] at hx; exact hx.1
  have : i < w.length := h.1 ▸ hi
  exact ⟨w[i], List.getElem?_eq_getElem this, h.2 i _ _ (List.getElem?_eq_getElem this) hx⟩

theorem AWRep.live_eq {isDef : α → Bool} {s : MB α} {x : List α × List α} (h : AWRep isDef s (some x)) : s = live s.b := by
  obtain ⟨b, n⟩ := s
  have : n = false := h.1
  subst this; rfl

theorem awStep_spec (isDef : α → Bool) (u : α) {w : World α} {m : AWSpec α} (h : AWInv isDef w m) (o : AWOp α) (ho : o.Ok isDef m) :
    ∃ w', awStep isDef u w o = .ok (w', (o.eff isDef m).2) ∧ AWInv isDef w' (o.eff isDef m).1 := by
  cases o with
  | make b => exact ⟨_, rfl, h.app ⟨rfl, rep_ofBase b, ho⟩⟩
  | makeList l => exact ⟨_, rfl, h.app ⟨rfl, rep_ofList l, by simp⟩⟩
  | copy i =>
    obtain ⟨x, hx⟩ := ho
    obtain ⟨s, hs, hr⟩ := h.at hx
    refine ⟨w ++ [ArrW.copy s], by simp [awStep, copyNew, hs, AWOp.eff], ?_⟩
    simp only [AWOp.eff, hx, Option.getD_some]
    exact h.app hr
  | assign i j =>
    obtain ⟨hi, x, hx⟩ := ho
    obtain ⟨s, hs, hr⟩ := h.at hx
    by_cases hij : i = j
    · subst hij
      refine ⟨w, by simp [awStep, copyAssign, AWOp.eff], ?_⟩
      simp only [AWOp.eff, hx, Option.getD_some]
      have : m.set i (some x) = m := by
        rw [List.getElem?_eq_some_iff] at hx
        obtain ⟨h1, h2⟩ := hx
        rw [← h2]; exact List.set_getElem_self h1
      rw [this]; exact h
    · obtain ⟨t, ht⟩ : ∃ t, w[i]? = some t := ⟨_, List.getElem?_eq_getElem (h.1 ▸ hi)⟩
      refine ⟨w.set i (ArrW.copy s), by simp [awStep, copyAssign, hs, ht, hij, AWOp.eff], ?_⟩
      simp only [AWOp.eff, hx, Option.getD_some]
      exact h.put i hr
  | move i =>
    obtain ⟨x, hx⟩ := ho
    obtain ⟨s, hs, hr⟩ := h.at hx
    refine ⟨w.set i (ArrW.move s).2 ++ [(ArrW.move s).1], by simp [awStep, moveNew, hs, AWOp.eff], ?_⟩
    simp only [AWOp.eff, hx, Option.getD_some]
    exact (h.put i (s := (ArrW.move s).2) (x := none) trivial).app hr
  | moveAssign i j =>
    obtain ⟨hi, x, hx⟩ := ho
    obtain ⟨s, hs, hr⟩ := h.at hx
    by_cases hij : i = j
    · subst hij
      refine ⟨w, by simp [awStep, ArrW.moveAssign, AWOp.eff], ?_⟩
      simp only [AWOp.eff, if_pos]
      exact h
    · obtain ⟨t, ht⟩ : ∃ t, w[i]? = some t := ⟨_, List.getElem?_eq_getElem (h.1 ▸ hi)⟩
      refine ⟨(w.set j (ArrW.move s).2).set i (ArrW.move s).1, by simp [awStep, ArrW.moveAssign, hs, ht, hij, AWOp.eff], ?_⟩
      simp only [AWOp.eff, hx, Option.getD_some, if_neg hij]
      exact (h.put j (s := (ArrW.move s).2) (x := none) trivial).put i hr
  | edit i op =>
    obtain ⟨x, hx, hop⟩ := ho
    obtain ⟨s, hs, hr⟩ := h.at hx
    obtain ⟨b, hb, hrep⟩ := runB_rep u op hr.2.1 hop
    have e : runMB u op s = .ok (live b) := by rw [AWRep.live_eq hr, runMB_live, hb]; rfl
    refine ⟨w.set i (live b), by simp [awStep, hs, e, AWOp.eff], ?_⟩
    simp only [AWOp.eff, hx, Option.getD_some, Option.map_some]
    refine h.put i ⟨rfl, hrep, ?_⟩
    intro v hv
    have : (op.run x).1 = x.1 ∨ (op.run x).1 = [] := by cases op <;> simp [LOp.run]
    rcases this with h1 | h1
    · exact hr.2.2 v (h1 ▸ hv)
    · rw [h1] at hv; cases hv
  | size i =>
    obtain ⟨x, hx⟩ := ho
    obtain ⟨s, hs, hr⟩ := h.at hx
    refine ⟨w, ?_, h⟩
    simp only [awStep, hs, AWOp.eff, hx]
    rw [ArrW.size, hr.2.1.size]
  | item i p =>
    obtain ⟨x, hx⟩ := ho
    obtain ⟨s, hs, hr⟩ := h.at hx
    have e : ArrW.get u s p = ArrB.get u s.b p := by rw [AWRep.live_eq hr]; simp [ArrW.get, live]
    refine ⟨w, ?_, h⟩
    simp only [awStep, hs, AWOp.eff, hx, e]
    by_cases hp : p < x.2.length
    · rw [rep_get hr.2.1 u hp, List.getElem?_eq_getElem hp]
    · rw [get_out hr.2.1 u (by omega), List.getElem?_eq_none (by omega)]
  | commit i =>
    obtain ⟨x, hx⟩ := ho
    obtain ⟨s, hs, hr⟩ := h.at hx
    have e : ArrW.commit isDef u s = .ok (x.2.filter isDef) := by
      have hc := rep_commit_def hr.2.1 isDef u hr.2.2
      rw [ArrW.commit, hr.1]
      by_cases h0 : ArrW.size s = 0
      · rw [if_pos h0, ← hc, ArrB.commit, if_pos (show ArrB.size s.b = 0 from h0)]
      · rw [if_neg h0, ← hc]; simp
    exact ⟨w, by simp [awStep, hs, AWOp.eff, hx, e], h⟩

theorem awRun_spec (isDef : α → Bool) (u : α) : ∀ (os : List (AWOp α)) (w : World α) (m : AWSpec α), AWInv isDef w m →
    AWLegal isDef os m → ∃ w', awRun isDef u os w = .ok ((awSpec isDef os m).1, w') ∧ AWInv isDef w' (awSpec isDef os m).2
  | [], w, m, h, _ => ⟨w, rfl, h⟩
  | o :: os, w, m, h, hl => by
    obtain ⟨w1, e1, h1⟩ := awStep_spec isDef u h o hl.1
    obtain ⟨w2, e2, h2⟩ := awRun_spec isDef u os w1 _ h1 hl.2
    refine ⟨w2, ?_, h2⟩
    rw [awRun, e1]
    simp [e2, awSpec]

/-- **C156.** A program makes array builders, copies and moves them by construction and by assignment (to themselves as well), edits
them and looks at them, never using one that was moved away other than to assign to it. Nothing undefined happens and every answer
is the one that independent lists give. -/
theorem C156_independent_partial (isDef : α → Bool) (u : α) (os : List (AWOp α)) (hl : AWLegal isDef os []) :
    ∃ w, awRun isDef u os [] = .ok ((awSpec isDef os []).1, w) ∧ w.length = (awSpec isDef os []).2.length := by
  obtain ⟨w, e, h⟩ := awRun_spec isDef u os [] [] ⟨rfl, by simp⟩ hl
  exact ⟨w, e, h.1⟩

/-- A copy and its original are edited, the original is moved away and assigned to again. -/
example : AWLegal (· != 0) [AWOp.make [1, 2], .copy 0, .edit 0 (.add 3), .move 0, .assign 0 1, .edit 1 (.erase 0), .moveAssign 1 1, .commit 0, .commit 1,
      .commit 2] [] ∧
    (awSpec (· != 0) [AWOp.make [1, 2], .copy 0, .edit 0 (.add 3), .move 0, .assign 0 1, .edit 1 (.erase 0), .moveAssign 1 1, .commit 0, .commit 1,
      .commit 2] []).1.drop 7 = [.array [1, 2], .array [2], .array [1, 2, 3]] := by
  refine ⟨?_, by decide⟩
  simp [AWLegal, AWOp.Ok, AWOp.eff, LOp.InRange, LOp.run]

/-! ## Builders that were moved away -/

/-- **C156 does not hold for builders that were moved away.** The builder keeps the size of the part that came from the base although it
has no base any more: `size()` is not zero, reading those items, `revert()` and making the array are undefined. -/
theorem C156_violation_moved (isDef : α → Bool) (u : α) (s : MB α) (h : 0 < s.b.offset) :
    size (ArrW.move s).2 = s.b.offset ∧ (∀ p < s.b.offset, ArrW.get u (ArrW.move s).2 p = .ub) ∧
      ArrW.revert (ArrW.move s).2 = .ub ∧ ArrW.commit isDef u (ArrW.move s).2 = .ub := by
  have hs : size (ArrW.move s).2 = s.b.offset := by simp [ArrW.move, ArrW.size, ArrB.size]
  refine ⟨hs, fun p hp => by simp [ArrW.get, ArrW.move, hp], rfl, ?_⟩
  rw [ArrW.commit, if_neg (by omega)]
  rfl

example : 0 < (live (ArrB.ofBase [1, 2])).b.offset := by decide

/-- Even `clear()` does not make it usable: items can be added and read, but an array that is not empty cannot be made. -/
theorem C156_violation_cleared (isDef : α → Bool) (u : α) (s : MB α) (vs : List α) (h : vs ≠ []) :
    size (ArrW.addSet (ArrW.clear (ArrW.move s).2) vs) = vs.length ∧
      (∀ p (hp : p < vs.length), ArrW.get u (ArrW.addSet (ArrW.clear (ArrW.move s).2) vs) p = .ok vs[p]) ∧
      ArrW.commit isDef u (ArrW.addSet (ArrW.clear (ArrW.move s).2) vs) = .ub := by
  have hs : size (ArrW.addSet (ArrW.clear (ArrW.move s).2) vs) = vs.length := by
    simp [ArrW.move, ArrW.clear, ArrW.addSet, ArrB.clear, ArrB.addSet, ArrW.size, ArrB.size]
  refine ⟨hs, fun p hp => ?_, ?_⟩
  · simp [ArrW.get, ArrW.move, ArrW.clear, ArrW.addSet, ArrB.clear, ArrB.addSet, ArrB.get, hp]
  · rw [ArrW.commit, hs, if_neg (by simpa using h)]
    rfl

example : ([7] : List Nat) ≠ [] := by decide

end Imt.Props
