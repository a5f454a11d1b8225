import Verif.Spec.Map
/-!
# Specification of an editable finite map

A map that remembers what it started from (`base`) and the changes made since. Nothing here refers to the model.
-/
namespace Imt.Spec
open Imt

/-- State: the map underneath, whether it is itself a diff (a set of changes), and the changes: last value given to a key. -/
structure MState (α : Type) where
  diff : Bool
  base : Bytes → Option α
  chg : Bytes → Option α

/-- Operations. `copy` continues with a copy. -/
inductive MOp (α : Type) where
  | set (k : Bytes) (v : α)
  | unset (k : Bytes)
  | merge (ms : List (Bytes × α))
  | clear
  | revert
  | setBase (ms : List (Bytes × α)) (diff : Bool)
  | copy
  | read (k : Bytes)
  | commit
  | iterate
deriving Repr

/-- One change. -/
def upd {α} (f : Bytes → Option α) (k : Bytes) (v : α) : Bytes → Option α := fun x => if k = x then some v else f x

/-- Effect of an operation; `undef` is the undefined value, which removes a key. -/
def MOp.run {α} (undef : α) : MOp α → MState α → MState α
  | .set k v, s => { s with chg := upd s.chg k v }
  | .unset k, s => { s with chg := upd s.chg k undef }
  | .merge ms, s => { s with chg := ms.foldl (fun f m => upd f m.1 m.2) s.chg }
  | .clear, _ => ⟨false, fun _ => none, fun _ => none⟩
  | .revert, s => { s with chg := fun _ => none }
  | .setBase ms d, s => { s with base := lookup ms, diff := d }
  | _, s => s

/-- Value shown for a key. -/
def MState.show {α} (undef : α) (s : MState α) (k : Bytes) : α := ((s.chg k).or (s.base k)).getD undef

/-- The committed map: changed keys have the new value, or vanish when it is undefined (unless the map is a diff, where
the removal is part of the content); the others are those of the base. -/
def MState.result {α} (isDef : α → Bool) (s : MState α) (k : Bytes) : Option α :=
  match s.chg k with
  | none => s.base k
  | some v => if isDef v || s.diff then some v else none

/-- What an operation lets one see. -/
inductive Seen (α : Type) where
  | nothing
  | value (v : α)
  | members (l : List (Bytes × α))
deriving Repr

/-- What one should see. -/
def MOp.sees {α} (isDef : α → Bool) (undef : α) (s : MState α) (o : Seen α) : MOp α → Prop
  | .read k => o = .value (s.show undef k)
  | .commit => ∃ l, o = .members l ∧ StrictSorted l ∧ ∀ k, lookup l k = s.result isDef k
  | _ => True

/-- Operations given with a canonical base only. -/
def MOp.Canon {α} : MOp α → Prop
  | .setBase ms _ => StrictSorted ms
  | _ => True

end Imt.Spec
