import Verif.Model.Base
/-!
# Object containers: construction, sorting, lookup (`objectValue.cpp`, `value.cpp`)

An object value is a list of members `(key, value)` (an `ObjectValue` is a `Container<PValue>` whose items carry their
key, `IValue::getMemberName`). The value type is a parameter.
-/
namespace Imt.Obj
open Imt

abbrev Members (α : Type) := List (Bytes × α)

/-- Shared step of the two loops that drop earlier duplicates (value.cpp:401-404 and objectValue.cpp:60-66): when the
key equals the previous one and something has been written, the last written item is replaced. -/
def pushLast {α} (last : Bytes) (out : Members α) (m : Bytes × α) : Members α :=
  if last = m.1 ∧ out ≠ [] then out.dropLast ++ [m] else out ++ [m]

/-- Loop of `Value(object, values, skipUndef)` (value.cpp:394-407): returns the collected items and `ordered`.
`lastKey` starts as an empty view. Undefined items are removed before by `mkObject`. -/
def collect {α} : Bytes → Members α → Bool → Members α → Members α × Bool
  | _, out, ordered, [] => (out, ordered)
  | last, out, ordered, m :: ms =>
    if cmpBytes last m.1 = .gt then collect m.1 (out ++ [m]) false ms
    else if cmpBytes last m.1 = .eq then collect m.1 ((if out ≠ [] then out.dropLast else out) ++ [m]) ordered ms
    else collect m.1 (out ++ [m]) ordered ms

/-- Insert before the first item whose key is not smaller. -/
def insertStable {α} (m : Bytes × α) : Members α → Members α
  | [] => [m]
  | x :: xs => if cmpBytes m.1 x.1 = .gt then x :: insertStable m xs else m :: x :: xs

/-- `std::stable_sort` by key (objectValue.cpp:54-56). The C++ standard fixes its result (sorted, equal keys in the
original order), computed here by stable insertion sort. -/
def stableSort {α} : Members α → Members α
  | [] => []
  | m :: ms => insertStable m (stableSort ms)

/-- Second half of `ObjectValue::sort` (objectValue.cpp:57-69): among equal neighbours the last one stays. -/
def dedupe {α} : Bytes → Members α → Members α → Members α
  | _, out, [] => out
  | last, out, m :: ms => dedupe m.1 (pushLast last out m) ms

/-- `ObjectValue::sort` (objectValue.cpp:53-71). -/
def sort {α} (l : Members α) : Members α := dedupe [] [] (stableSort l)

/-- `Value(object, values, skipUndef)` (value.cpp:390-413); `isDef` is `Value::defined`. -/
def mkObject {α} (isDef : α → Bool) (skipUndef : Bool) (values : Members α) : Members α :=
  let vs := if skipUndef then values.filter (fun m => isDef m.2) else values
  let r := collect [] [] true vs
  if r.2 then r.1 else sort r.1

/-- `ObjectValue::findSorted` (objectValue.cpp:32-50): binary search in `[l, r)`. -/
def findSorted {α} (o : Members α) (name : Bytes) (l r : Nat) : Option (Bytes × α) :=
  if h : l < r then
    let m := (l + r) / 2
    match o[m]? with
    | none => none
    | some it =>
      match cmpBytes name it.1 with
      | .gt => findSorted o name (m + 1) r
      | .lt => findSorted o name l m
      | .eq => some it
  else none
termination_by r - l
decreasing_by all_goals simp_wf; omega

/-- `ObjectValue::member` (objectValue.cpp:27-31): `none` stands for the undefined value. -/
def member {α} (o : Members α) (name : Bytes) : Option α := (findSorted o name 0 o.length).map (·.2)

end Imt.Obj
