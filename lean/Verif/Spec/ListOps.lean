import Mathlib.Data.List.Basic
/-!
# Specification of list operations

What the operations of the array builder mean on a plain list (`array.h` documentation, JavaScript `slice`). Nothing here
refers to the model.
-/
namespace Imt.Spec

/-- JavaScript's clamping of a relative index: negative values count from the end. -/
def clampIdx (n : Nat) (i : Int) : Nat := if i < 0 then (n + i).toNat else min i.toNat n

/-- Items of `l` in `[start, end)`, negative values counting from the end. -/
def window {α} (l : List α) (start en : Int) : List α :=
  (l.take (clampIdx l.length en)).drop (clampIdx l.length start)

/-- Operations of an editable list that remembers the list it started from. -/
inductive LOp (α : Type) where
  | add (v : α)
  | addSet (vs : List α)
  | insert (pos : Nat) (v : α)
  | erase (pos : Nat)
  | eraseSet (pos len : Nat)
  | set (pos : Nat) (v : α)
  | trunc (pos : Nat)
  | setSize (len : Nat) (v : α)
  | clear
  | revert
  | reverse
deriving Repr

/-- The positions are in the range the documentation asks for. -/
def LOp.InRange {α} (l : List α) : LOp α → Prop
  | .insert p _ => p ≤ l.length
  | .erase p => p < l.length
  | .eraseSet p n => p + n ≤ l.length
  | .set p _ => p < l.length
  | .trunc p => p ≤ l.length
  | _ => True

/-- Effect on the pair (remembered list, current list). Reversing starts a new list: nothing is remembered. -/
def LOp.run {α} : LOp α → List α × List α → List α × List α
  | .add v, (b, l) => (b, l ++ [v])
  | .addSet vs, (b, l) => (b, l ++ vs)
  | .insert p v, (b, l) => (b, l.take p ++ v :: l.drop p)
  | .erase p, (b, l) => (b, l.take p ++ l.drop (p + 1))
  | .eraseSet p n, (b, l) => (b, l.take p ++ l.drop (p + n))
  | .set p v, (b, l) => (b, l.take p ++ v :: l.drop (p + 1))
  | .trunc p, (b, l) => (b, l.take p)
  | .setSize n v, (b, l) => (b, l.take n ++ List.replicate (n - l.length) v)
  | .clear, (b, _) => (b, [])
  | .revert, (b, _) => (b, b)
  | .reverse, (_, l) => ([], l.reverse)

/-- Every operation of a sequence is in range when its turn comes. -/
def Legal {α} : List (LOp α) → List α × List α → Prop
  | [], _ => True
  | op :: ops, s => op.InRange s.2 ∧ Legal ops (op.run s)

/-- Result of a sequence. -/
def runOps {α} : List (LOp α) → List α × List α → List α × List α
  | [], s => s
  | op :: ops, s => runOps ops (op.run s)

end Imt.Spec
