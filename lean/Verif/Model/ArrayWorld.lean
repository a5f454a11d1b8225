import Verif.Model.ArrayB
/-!
# Several array builders: copying and moving (`array.cpp:225-267`)

The base of a builder is a `Value`, that is a handle. `Value` declares neither copy nor move operations, so moving one moves the
handle, and the handle left behind is null (`RefCntPtr` of the absent submodule `shared`; assumed). The vector left behind is empty.
Any use of the base through a null handle (`base.size()`, `base[x]`) is undefined behaviour.
-/
namespace Imt.ArrW
open Imt
open Imt.ArrB (AB)

/-- `Array` (array.h:269-285); `null` says that the base handle is null, `b.base` then means nothing. -/
structure MB (α : Type) where
  b : AB α
  null : Bool
deriving Repr, DecidableEq

variable {α : Type}

/-- A builder whose base handle is set. -/
def live (s : AB α) : MB α := ⟨s, false⟩

/-- `Array(const Array &)`, `operator=(const Array &)` (array.cpp:225-227, 232-237, 247-250, 256-260): the handle, the vector of handles and the offset. -/
def copy (s : MB α) : MB α := ⟨⟨s.b.base, s.b.changes, s.b.offset⟩, s.null⟩

/-- `Array(Array &&)`, `operator=(Array &&)` (array.cpp:229-230, 239-244, 252-254, 262-266): the target and what is left in the source. The
source keeps its offset. -/
def move (s : MB α) : MB α × MB α := (⟨⟨s.b.base, s.b.changes, s.b.offset⟩, s.null⟩, ⟨⟨[], [], s.b.offset⟩, true⟩)

/-- `Array::size` (array.cpp:134-138). -/
def size (s : MB α) : Nat := ArrB.size s.b

/-- `Array::push_back`, `Array::add` (array.cpp:19-28). -/
def add (s : MB α) (v : α) : MB α := ⟨ArrB.add s.b v, s.null⟩

/-- `Array::addSet` (array.cpp:29-41). -/
def addSet (s : MB α) (vs : List α) : MB α := ⟨ArrB.addSet s.b vs, s.null⟩

/-- A function that calls `extendChanges(pos)` (array.cpp:177-186) first: the base is read if `pos` is below the offset. -/
def extending (s : MB α) (pos : Nat) (f : AB α → Res (AB α)) : Res (MB α) :=
  if s.null && decide (pos < s.b.offset) then .ub else do
    let b ← f s.b
    pure ⟨b, s.null⟩

/-- `Array::insert` (array.cpp:43-48). -/
def insert (undef : α) (s : MB α) (pos : Nat) (v : α) : Res (MB α) := extending s pos fun b => ArrB.insert undef b pos v

/-- `Array::erase` (array.cpp:76-81). -/
def erase (undef : α) (s : MB α) (pos : Nat) : Res (MB α) := extending s pos fun b => ArrB.erase undef b pos

/-- `Array::eraseSet` (array.cpp:82-89). -/
def eraseSet (undef : α) (s : MB α) (pos len : Nat) : Res (MB α) := extending s pos fun b => ArrB.eraseSet undef b pos len

/-- `Array::set` (array.cpp:114-119). -/
def set (undef : α) (s : MB α) (pos : Nat) (v : α) : Res (MB α) := extending s pos fun b => ArrB.set undef b pos v

/-- `Array::trunc` (array.cpp:90-100). -/
def trunc (s : MB α) (pos : Nat) : Res (MB α) := do
  let b ← ArrB.trunc s.b pos
  pure ⟨b, s.null⟩

/-- `Array::setSize` (array.cpp:305-310). -/
def setSize (s : MB α) (len : Nat) (v : α) : Res (MB α) := do
  let b ← ArrB.setSize s.b len v
  pure ⟨b, s.null⟩

/-- `Array::clear` (array.cpp:102-106). -/
def clear (s : MB α) : MB α := ⟨ArrB.clear s.b, s.null⟩

/-- `Array::revert` (array.cpp:108-112): `base.size()`. -/
def revert (s : MB α) : Res (MB α) := if s.null then .ub else .ok ⟨ArrB.revert s.b, false⟩

/-- `Array::operator[]` (array.cpp:121-128). -/
def get (undef : α) (s : MB α) (pos : Nat) : Res α :=
  if s.null && decide (pos < s.b.offset) then .ub else ArrB.get undef s.b pos

/-- Loop of `reverse` (array.cpp:270-272). -/
def revLoop (undef : α) (s : MB α) : Nat → AB α → Res (AB α)
  | 0, out => .ok out
  | x + 1, out => do
    let v ← get undef s x
    revLoop undef s x (ArrB.add out v)

/-- `Array::reverse` (array.cpp:269-275): the new builder made by the loop is moved into this one. -/
def reverse (undef : α) (s : MB α) : Res (MB α) := do
  let out ← revLoop undef s (size s) ArrB.new
  pure (live out)

/-- `Array::commit` (array.cpp:146-163): `dirty()` asks for `base.size()`. -/
def commit (isDef : α → Bool) (undef : α) (s : MB α) : Res (List α) :=
  if size s = 0 then .ok []
  else if s.null then .ub
  else ArrB.commit isDef undef s.b

/-- All builders of a program. -/
abbrev World (α : Type) := List (MB α)

/-- `Array b(a)` for builder `i`. -/
def copyNew (w : World α) (i : Nat) : Res (World α) :=
  match w[i]? with
  | some s => .ok (w ++ [copy s])
  | none => .ub

/-- `a = b` (array.cpp:232-237). -/
def copyAssign (w : World α) (i j : Nat) : Res (World α) :=
  if i = j then .ok w else
  match w[i]?, w[j]? with
  | some _, some s => .ok (w.set i (copy s))
  | _, _ => .ub

/-- `Array b(std::move(a))`. -/
def moveNew (w : World α) (i : Nat) : Res (World α) :=
  match w[i]? with
  | some s => .ok (w.set i (move s).2 ++ [(move s).1])
  | none => .ub

/-- `a = std::move(b)` (array.cpp:239-244). -/
def moveAssign (w : World α) (i j : Nat) : Res (World α) :=
  if i = j then .ok w else
  match w[i]?, w[j]? with
  | some _, some s => .ok ((w.set j (move s).2).set i (move s).1)
  | _, _ => .ub

end Imt.ArrW
