import Verif.Model.Base
/-!
# Array builder (`array.h`, `array.cpp`)

The item type is a parameter; `isDef` is `type() != undefined`. A builder keeps the first `offset` items of `base` and
then the items of the vector `changes`. A null pointer in that vector (`PValue()`) is `none`; using it is undefined
behaviour, as is an iterator outside the vector. `Value::size()` and `Value::operator[]` of the base are the length and the items of a list, out of
range is `undefined` (arrayValue.cpp:11-20).
-/
namespace Imt.ArrB
open Imt

/-- `Array` (array.h:269-285): the base, `changes` as a vector of pointers, and `changes.offset`. -/
structure AB (α : Type) where
  base : List α
  changes : List (Option α)
  offset : Nat
deriving Repr, DecidableEq

variable {α : Type}

/-- `Array(Value)` (array.cpp:8-10, array.h:279). -/
def ofBase (l : List α) : AB α := ⟨l, [], l.length⟩

/-- `Array()` (array.cpp:11-13). -/
def new : AB α := ⟨[], [], 0⟩

/-- `Array(initializer_list)` (array.cpp:14-17). -/
def ofList (l : List α) : AB α := ⟨[], l.map some, 0⟩

/-- `setBaseObject` (array.h:20-24). -/
def setBase (s : AB α) (l : List α) : AB α :=
  if s.changes.isEmpty then ⟨l, s.changes, l.length⟩ else ⟨l, s.changes, min s.offset l.length⟩

/-- `Array::size` (array.cpp:134-138). -/
def size (s : AB α) : Nat := s.offset + s.changes.length

/-- `Array::push_back`, `Array::add` (array.cpp:19-28). -/
def add (s : AB α) (v : α) : AB α := { s with changes := s.changes ++ [some v] }

/-- `Array::addSet` (array.cpp:29-41, 67-69). -/
def addSet (s : AB α) (vs : List α) : AB α := { s with changes := s.changes ++ vs.map some }

/-- Copy loop of `extendChanges` (array.cpp:181-183): `changes[x - pos] = base[x].v` for `x` in `[pos, offset)`; `n` steps are left. -/
def copyLoop (undef : α) (base : List α) (pos : Nat) : Nat → Nat → List (Option α) → List (Option α)
  | 0, _, ch => ch
  | n + 1, x, ch => copyLoop undef base pos n (x + 1) (ch.set (x - pos) (some (base.getD x undef)))

/-- `Array::extendChanges` (array.cpp:177-186). -/
def extendChanges (undef : α) (s : AB α) (pos : Nat) : AB α :=
  if pos < s.offset then
    ⟨s.base, copyLoop undef s.base pos (s.offset - pos) pos (List.replicate (s.offset - pos) none ++ s.changes), pos⟩
  else s

/-- `vector::insert` of a block at an index; outside the vector is undefined. -/
def vecInsert (l : List (Option α)) (i : Nat) (b : List (Option α)) : Res (List (Option α)) :=
  if i ≤ l.length then .ok (l.take i ++ b ++ l.drop i) else .ub

/-- `vector::erase` of `n` items at an index; outside the vector is undefined. -/
def vecErase (l : List (Option α)) (i n : Nat) : Res (List (Option α)) :=
  if i + n ≤ l.length then .ok (l.take i ++ l.drop (i + n)) else .ub

/-- Write through `vector::operator[]`. -/
def vecSet (l : List (Option α)) (i : Nat) (v : Option α) : Res (List (Option α)) :=
  if i < l.length then .ok (l.set i v) else .ub

/-- `Array::insert` (array.cpp:43-48). -/
def insert (undef : α) (s : AB α) (pos : Nat) (v : α) : Res (AB α) := do
  let s := extendChanges undef s pos
  let ch ← vecInsert s.changes (pos - s.offset) [some v]
  pure { s with changes := ch }

/-- Loop of `Array::insertSet` (array.cpp:53-55): `changes[pos + changes.offset + i] = v.data[i].v`. -/
def insertLoop (at' : Nat) : List α → List (Option α) → Res (List (Option α))
  | [], ch => .ok ch
  | v :: vs, ch => do
    let ch ← vecSet ch at' (some v)
    insertLoop (at' + 1) vs ch

/-- `Array::insertSet` (array.cpp:49-65, 71-74). -/
def insertSet (undef : α) (s : AB α) (pos : Nat) (vs : List α) : Res (AB α) := do
  let s := extendChanges undef s pos
  let ch ← vecInsert s.changes (pos - s.offset) (List.replicate vs.length none)
  let ch ← insertLoop (pos + s.offset) vs ch
  pure { s with changes := ch }

/-- `Array::erase` (array.cpp:76-81). -/
def erase (undef : α) (s : AB α) (pos : Nat) : Res (AB α) := do
  let s := extendChanges undef s pos
  let ch ← vecErase s.changes (pos - s.offset) 1
  pure { s with changes := ch }

/-- `Array::eraseSet` (array.cpp:82-89). -/
def eraseSet (undef : α) (s : AB α) (pos len : Nat) : Res (AB α) := do
  let s := extendChanges undef s pos
  let ch ← vecErase s.changes (pos - s.offset) len
  pure { s with changes := ch }

/-- `Array::trunc` (array.cpp:90-100). -/
def trunc (s : AB α) (pos : Nat) : Res (AB α) :=
  if pos < s.offset then .ok ⟨s.base, [], pos⟩
  else if pos - s.offset ≤ s.changes.length then .ok { s with changes := s.changes.take (pos - s.offset) }
  else .ub

/-- `Array::clear` (array.cpp:102-106). -/
def clear (s : AB α) : AB α := ⟨s.base, [], 0⟩

/-- `Array::revert` (array.cpp:108-112). -/
def revert (s : AB α) : AB α := ⟨s.base, [], s.base.length⟩

/-- `Array::set` (array.cpp:114-119). -/
def set (undef : α) (s : AB α) (pos : Nat) (v : α) : Res (AB α) := do
  let s := extendChanges undef s pos
  let ch ← vecSet s.changes (pos - s.offset) (some v)
  pure { s with changes := ch }

/-- `Array::operator[]` (array.cpp:121-128): `at` throws outside the vector; a value made of a null pointer cannot be
used. -/
def get (undef : α) (s : AB α) (pos : Nat) : Res α :=
  if pos < s.offset then .ok (s.base.getD pos undef)
  else match s.changes[pos - s.offset]? with
    | none => .err
    | some none => .ub
    | some (some v) => .ok v

/-- `Array::dirty` (array.cpp:172-176). -/
def dirty (s : AB α) : Bool := s.offset != s.base.length || !s.changes.isEmpty

/-- `Container::push_back` (container.h:122-142): refused when the capacity is used up (the result is ignored). -/
def pushCap (cap : Nat) (l : List α) (v : α) : List α := if l.length < cap then l ++ [v] else l

/-- First loop of `commit` (array.cpp:154-156). -/
def commitBase (undef : α) (base : List α) (cap : Nat) : Nat → Nat → List α → List α
  | 0, _, out => out
  | n + 1, x, out => commitBase undef base cap n (x + 1) (pushCap cap out (base.getD x undef))

/-- Second loop of `commit` (array.cpp:157-159). -/
def commitChanges (isDef : α → Bool) (cap : Nat) : List (Option α) → List α → Res (List α)
  | [], out => .ok out
  | none :: _, _ => .ub
  | some v :: r, out => commitChanges isDef cap r (if isDef v then pushCap cap out v else out)

/-- `Array::commit` (array.cpp:146-163) for a base that is an array; `base.getHandle()` denotes the base list. -/
def commit (isDef : α → Bool) (undef : α) (s : AB α) : Res (List α) :=
  if size s = 0 then .ok []
  else if !dirty s then .ok s.base
  else
    let cap := s.offset + s.changes.length
    commitChanges isDef cap s.changes (commitBase undef s.base cap s.offset 0 [])

/-- Loop of `reverse` (array.cpp:270-272), `x` counting down. -/
def revLoop (undef : α) (s : AB α) : Nat → AB α → Res (AB α)
  | 0, out => .ok out
  | x + 1, out => do
    let v ← get undef s x
    revLoop undef s x (add out v)

/-- `Array::reverse` (array.cpp:269-275); the new builder has an empty base. -/
def reverse (undef : α) (s : AB α) : Res (AB α) := revLoop undef s (size s) new

/-- `Array::slice(start)` (array.cpp:278-289). `Int` is a 64-bit integer; `-start` of the smallest one is undefined. -/
def slice1 (undef : α) (s : AB α) (start : Int) : Res (AB α) :=
  if start = -2 ^ 63 then .ub
  else if start < 0 then
    if -start < size s then
      let st := (size s + start).toNat
      -- the recursive call has a non-negative argument
      if (st : Int) ≥ size s then .ok (clear s) else eraseSet undef s 0 st
    else .ok s
  else if start ≥ size s then .ok (clear s)
  else eraseSet undef s 0 start.toNat

/-- `Array::slice(start, end)` for a non-negative `end` (array.cpp:299-302). -/
def slice2pos (undef : α) (s : AB α) (start en : Int) : Res (AB α) :=
  if en < size s then do
    let s ← trunc s en.toNat
    slice1 undef s start
  else slice1 undef s start

/-- `Array::slice(start, end)` (array.cpp:292-303): after the recursive call for a negative `end` the function goes on
and slices by `start` once more. -/
def slice2 (undef : α) (s : AB α) (start en : Int) : Res (AB α) :=
  if en < 0 then
    if en = -2 ^ 63 then .ub
    else if -en < size s then do
      let s ← slice2pos undef s start (size s + en)
      slice1 undef s start
    else slice1 undef (clear s) start
  else slice2pos undef s start en

/-- Loop of `setSize` (array.cpp:308). -/
def fill (s : AB α) (v : α) : Nat → AB α
  | 0 => s
  | n + 1 => fill (add s v) v n

/-- `Array::setSize` (array.cpp:305-310). -/
def setSize (s : AB α) (len : Nat) (v : α) : Res (AB α) :=
  if size s > len then trunc s len else .ok (fill s v (len - size s))

end Imt.ArrB
