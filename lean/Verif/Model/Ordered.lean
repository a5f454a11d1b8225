import Verif.Model.ValueOps
/-!
# Ordered containers and grouping (`operations.h`)

`cmp` is the user's comparison function: negative, zero or positive. Containers are array values (`VOps.Arr`); an iterator
is an index (value.h:1188-1226), the end iterator is any index not below the size.
-/
namespace Imt.Ord
open Imt Imt.VOps

variable {α : Type}

/-- `ValueIterator::operator+(int)` (value.h:1216): the index is 64 bits wide, the distance is an `int`. -/
@[irreducible] def iterAdd (index : Nat) (p : Int) : Nat := ((index + wrap32 p) % 2 ^ 64).toNat

/-- Loop of `SortFn::find` (operations.h:210-221). The interval shrinks in every step, so `h - l` steps are enough; the
index of the middle is `none` when nothing is found. -/
def findLoop (cmp : α → α → Int) (undef : α) (a : Arr α) (needle : α) : Nat → Nat → Nat → Option Nat
  | 0, _, _ => none
  | n + 1, l, h =>
    if l < h then
      let m := (l + h) / 2
      let c := cmp needle (a.item undef m)
      if c < 0 then findLoop cmp undef a needle n l m
      else if c > 0 then findLoop cmp undef a needle n (m + 1) h
      else some m
    else none

/-- `SortFn::find` (operations.h:208-223): an iterator. -/
def find (cmp : α → α → Int) (undef : α) (a : Arr α) (needle : α) : Nat :=
  match findLoop cmp undef a needle a.size 0 a.size with
  | some m => iterAdd 0 m
  | none => a.size

/-- `Ordered::find` (operations.h:89-93). -/
def findValue (cmp : α → α → Int) (undef : α) (a : Arr α) (needle : α) : α :=
  if find cmp undef a needle ≥ a.size then undef else a.item undef (find cmp undef a needle)

/-- Loop that walks back (operations.h:99-102, 120-126): the iterator is at `i`. -/
def backLoop (cmp : α → α → Int) (undef : α) (a : Arr α) (needle : α) : Nat → Nat
  | 0 => 0
  | i + 1 => if cmp (a.item undef i) needle ≠ 0 then i + 1 else backLoop cmp undef a needle i

/-- `Ordered::lowerBound` (operations.h:96-104). -/
def lowerBound (cmp : α → α → Int) (undef : α) (a : Arr α) (needle : α) : Nat :=
  let i := find cmp undef a needle
  if i ≥ a.size then i else backLoop cmp undef a needle i

/-- Loop that walks on (operations.h:108-111, 128-131), `n` items before the end. The iterator is dereferenced after it was
moved, also when it is at the end. -/
def fwdLoop (cmp : α → α → Int) (undef : α) (a : Arr α) (needle : α) : Nat → Nat → Nat
  | 0, i => i
  | n + 1, i => if cmp (a.item undef (i + 1)) needle ≠ 0 then i + 1 else fwdLoop cmp undef a needle n (i + 1)

/-- `Ordered::upperBound` (operations.h:106-114). -/
def upperBound (cmp : α → α → Int) (undef : α) (a : Arr α) (needle : α) : Nat :=
  let i := find cmp undef a needle
  fwdLoop cmp undef a needle (a.size - i) i

/-- `Ordered::equalRange` (operations.h:117-133). The statement in line 119 has no effect. -/
def equalRange (cmp : α → α → Int) (undef : α) (a : Arr α) (needle : α) : Nat × Nat :=
  let i := backLoop cmp undef a needle (find cmp undef a needle)
  (i, fwdLoop cmp undef a needle (a.size - i) i)

/-- `std::stable_sort` with the test `cmp(a,b) < 0`, described by insertion from the right: an item goes before the first
one it does not follow. For a strict weak order the result of a stable sort is unique. -/
def insertItem (cmp : α → α → Int) (x : α) : List α → List α
  | [] => [x]
  | y :: r => if cmp y x < 0 then y :: insertItem cmp x r else x :: y :: r

/-- `SortFn::sort` (operations.h:196-205). -/
def sort (cmp : α → α → Int) (undef : α) (a : Arr α) : Arr α :=
  if a.size = 0 then .arr [] else .arr ((a.items undef).foldr (insertItem cmp) [])

/-- Loop of `SortFn::uniq` (operations.h:230-238). -/
def uniqLoop (cmp : α → α → Int) (prev : α) : List α → List α
  | [] => [prev]
  | v :: r => if cmp prev v ≠ 0 then prev :: uniqLoop cmp v r else uniqLoop cmp prev r

/-- `SortFn::uniq` (operations.h:226-240). The array has room for `size()` items. -/
def uniq (cmp : α → α → Int) (undef : α) (a : Arr α) : Arr α :=
  match a.items undef with
  | [] => a
  | x :: r => .arr ((uniqLoop cmp x r).take a.size)

/-- `sides` (operations.h:54-58). -/
structure Sides where
  left : Bool
  right : Bool
  common : Bool
deriving Repr, DecidableEq

/-- `estSize` (operations.h:250-258). -/
def estSize (s : Sides) (n1 n2 : Nat) : Nat :=
  match s.left, s.right, s.common with
  | true, false, _ => n1
  | false, true, _ => n2
  | false, false, true => max n1 n2
  | _, _, _ => n1 + n2

/-- One `push_back` guarded by a side. -/
def emit (b : Bool) (x : α) (r : List α) : List α := if b then x :: r else r

/-- Main loop of `comm` with current item `x1` of the first container, followed by `l1`, for the rest of the second one
(operations.h:267-291); `k` continues with `l1`. When the second container is exhausted the rest of the first one is copied
(operations.h:293-298). -/
def commStep (cmp : α → α → Int) (cf : α → α → α) (s : Sides) (x1 : α) (l1 : List α) (k : List α → List α) : List α → List α
  | [] => if s.left then x1 :: l1 else []
  | x2 :: l2 =>
    if cmp x1 x2 < 0 then emit s.left x1 (k (x2 :: l2))
    else if cmp x1 x2 > 0 then emit s.right x2 (commStep cmp cf s x1 l1 k l2)
    else emit s.common (cf x1 x2) (k l2)

/-- The items pushed by `comm` (operations.h:261-304). When the first container is exhausted the rest of the second one is
copied (operations.h:299-304). -/
def commLoop (cmp : α → α → Int) (cf : α → α → α) (s : Sides) : List α → List α → List α
  | [], l2 => if s.right then l2 else []
  | x1 :: l1, l2 => commStep cmp cf s x1 l1 (commLoop cmp cf s l1) l2

/-- `SortFn::comm` (operations.h:244-308). `ArrayValue::push_back` ignores items above the capacity
(container.h:123-131). -/
def comm (cmp : α → α → Int) (cf : α → α → α) (s : Sides) (undef : α) (a b : Arr α) : Arr α :=
  .arr ((commLoop cmp cf s (a.items undef) (b.items undef)).take (estSize s a.size b.size))

/-- `Ordered::merge` (operations.h:169-175). -/
def merge (cmp : α → α → Int) (cf : α → α → α) (undef : α) (a b : Arr α) : Arr α := comm cmp cf ⟨true, true, true⟩ undef a b
/-- `Ordered::complement` (operations.h:176-178); the conflict function returns its second argument (operations.h:51). -/
def complement (cmp : α → α → Int) (undef : α) (a b : Arr α) : Arr α := comm cmp (fun _ y => y) ⟨true, false, false⟩ undef a b
/-- `Ordered::intersection` (operations.h:179-185). -/
def intersection (cmp : α → α → Int) (cf : α → α → α) (undef : α) (a b : Arr α) : Arr α :=
  comm cmp cf ⟨false, false, true⟩ undef a b
/-- `Ordered::symdiff` (operations.h:186-188). -/
def symdiff (cmp : α → α → Int) (undef : α) (a b : Arr α) : Arr α := comm cmp (fun _ y => y) ⟨true, true, false⟩ undef a b

/-- Loop of `SortFn::group` (operations.h:320-331): the ranges given to the function. -/
def groupLoop (cmp : α → α → Int) (prev : α) (start pos : Nat) : List α → List (Nat × Nat)
  | [] => [(start, pos)]
  | v :: r =>
    if cmp prev v ≠ 0 then (start, pos) :: groupLoop cmp v pos (pos + 1) r else groupLoop cmp prev start (pos + 1) r

/-- Ranges of `SortFn::group` (operations.h:312-333). -/
def groupRanges (cmp : α → α → Int) : List α → List (Nat × Nat)
  | [] => []
  | x :: r => groupLoop cmp x 0 1 r

/-- `Ordered::group` (operations.h:312-333): `fn` gets the items of the range. -/
def group (cmp : α → α → Int) (fn : List α → α) (isDef : α → Bool) (undef : α) (a : Arr α) : Res (Arr α) :=
  if a.size = 0 then .ok a
  else do
    let l ← ArrB.commit isDef undef ((groupRanges cmp (a.items undef)).foldl
      (fun r p => ArrB.add r (fn (((a.items undef).drop p.1).take (p.2 - p.1)))) ArrB.new)
    pure (.arr l)

/-- Loop of `Array::split` (operations.h:464-478). Adding the set to the output makes a value of it. -/
def splitLoop (cmp : α → α → Int) (isDef : α → Bool) (undef : α) (out : ArrB.AB (List α)) (cur : ArrB.AB α) (prev : α) :
    List α → Res (ArrB.AB (List α))
  | [] => do
    let g ← ArrB.commit isDef undef cur
    pure (ArrB.add out g)
  | v :: r =>
    if !isDef prev then splitLoop cmp isDef undef out (ArrB.add cur v) v r
    else if cmp prev v ≠ 0 then do
      let g ← ArrB.commit isDef undef cur
      splitLoop cmp isDef undef (ArrB.add out g) (ArrB.add (ArrB.clear cur) v) v r
    else splitLoop cmp isDef undef out (ArrB.add cur v) prev r

/-- `Array::split` (operations.h:461-480) of a builder with the items `l`, as a value. -/
def split (cmp : α → α → Int) (isDef : α → Bool) (undef : α) (l : List α) : Res (List (List α)) := do
  let out ← splitLoop cmp isDef undef ArrB.new ArrB.new undef l
  ArrB.commit (fun _ => true) [] out

/-- `Array::group` (operations.h:483-491): every group is reduced from `init`; undefined results are dropped by `commit`. -/
def groupBy {β : Type} (cmp : α → α → Int) (f : β → α → β) (val : β → α) (init : β) (isDef : α → Bool) (undef : α) (l : List α) :
    Res (List α) := do
  let gs ← split cmp isDef undef l
  ArrB.commit isDef undef (gs.foldl (fun r g => ArrB.add r (val (g.foldl f init))) ArrB.new)

/-- What the generic `merge` did with the items: advanced the left, the right, or both. -/
inductive Ev (α : Type) where
  | left (x : α)
  | right (y : α)
  | both (x y : α)
deriving Repr, DecidableEq

/-- Main loop of the generic `merge` (operations.h:390-398) with left item `x`. -/
def mergeStep (fn : α → α → Int) (x : α) (l : List α) (k : List α → List (Ev α)) : List α → List (Ev α)
  | [] => (x :: l).map .left
  | y :: r =>
    if fn x y < 0 then .left x :: k (y :: r)
    else if fn x y > 0 then .right y :: mergeStep fn x l k r
    else .both x y :: k r

/-- The generic `merge` (operations.h:385-408). -/
def gmerge (fn : α → α → Int) : List α → List α → List (Ev α)
  | [], r => r.map .right
  | x :: l, r => mergeStep fn x l (gmerge fn l) r

end Imt.Ord
