/-!
# Orders given by a three-way comparison

Nothing here refers to the model.
-/
namespace Imt.Spec

/-- The comparison describes a total preorder: swapping the arguments swaps the sign, "not above" is transitive. -/
structure Lawful {α : Type} (cmp : α → α → Int) : Prop where
  swap : ∀ a b, cmp a b < 0 ↔ 0 < cmp b a
  trans : ∀ a b c, cmp a b ≤ 0 → cmp b c ≤ 0 → cmp a c ≤ 0

/-- Items do not decrease. -/
def Sorted {α : Type} (cmp : α → α → Int) (l : List α) : Prop := l.Pairwise (fun a b => cmp a b ≤ 0)

/-- Items increase. -/
def StrictlySorted {α : Type} (cmp : α → α → Int) (l : List α) : Prop := l.Pairwise (fun a b => cmp a b < 0)

/-- How many items are equivalent to `x`. -/
def count {α : Type} (cmp : α → α → Int) (x : α) (l : List α) : Nat := l.countP (fun y => decide (cmp x y = 0))

end Imt.Spec
