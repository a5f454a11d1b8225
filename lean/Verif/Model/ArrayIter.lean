import Verif.Model.ArrayB
/-!
# Loops over an array builder and values made of ranges (`array.h`, `array.cpp`)
-/
namespace Imt.ArrB
open Imt

variable {α : Type}

/-- `for (Value v: builder) body` with `ArrayIterator` (array.h:293-307, array.cpp:194-200): the index `i` of the type `UInt`, the end `e` taken
before the first round; `operator*` is `Array::operator[]`. The body gets the index and the item and may change the builder. The result
lists the items seen. -/
def forEach (undef : α) (body : Nat → α → AB α → Res (AB α)) (e : Nat) : (fuel : Nat) → (i : Nat) → AB α → Res (List α × AB α)
  | 0, _, _ => .fuel
  | n + 1, i, s =>
    if i = e then .ok ([], s)
    else do
      let v ← get undef s i
      let s ← body i v s
      let r ← forEach undef body e n ((i + 1) % 2 ^ 64) s
      pure (v :: r.1, r.2)

/-- The whole loop, from `begin()` to `end()`; at most 2^64 rounds are needed before the index repeats. -/
def loop (undef : α) (body : Nat → α → AB α → Res (AB α)) (s : AB α) : Res (List α × AB α) :=
  forEach undef body (size s) (size s + 1) 0 s

/-- `Value(const Range<Iter> &)` (array.h:326-332): items of the range are pushed to a new builder, which is committed. -/
def ofRange (isDef : α → Bool) (undef : α) (items : List α) : Res (List α) :=
  commit isDef undef (items.foldl add new)

/-- `Value(Range(builder.begin(), builder.end()))`: the loop over the builder feeds another one. -/
def rangeOf (isDef : α → Bool) (undef : α) (s : AB α) : Res (List α) := do
  let r ← loop undef (fun _ _ s => .ok s) s
  ofRange isDef undef r.1

/-- `Array::addObject` and `Array::addArray` without the editor they return (array.cpp:208-218): the empty container `v` is added and its
position is what the editor keeps. -/
def addEmpty (s : AB α) (v : α) : AB α × Nat := (add s v, size s)

end Imt.ArrB
