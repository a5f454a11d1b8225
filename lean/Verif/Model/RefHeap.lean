import Verif.Model.Base
/-!
# Memory of values (`ivalue.h`, `container.h`, `key.h`, `abstractValue.cpp`)

Values are counted objects (`IValue: RefCntObj`, ivalue.h:184) held by `PValue` (ivalue.h:179). A `Value` holds one pointer; arrays
and objects hold one for each item (`Container<PValue>`), proxies one (key.h:41). `RefCntPtr` is in the absent submodule; assumed is its
usual contract: making or copying a pointer adds one to the counter, its destructor takes one, and the pointer that takes the counter
to zero deletes the object.
-/
namespace Imt.RefHeap
open Imt

/-- An object in memory: its counter, the objects its pointers refer to, and how many times its memory was given back. Items are kept
here after the destruction (the counter is zero then), nothing reads them. -/
structure Cell where
  cnt : Nat
  kids : List Nat
  freed : Nat := 0
deriving Repr, DecidableEq

/-- All objects ever made; the address of an object is its position. -/
abbrev Heap := List Cell

/-- A pointer to `a` is made. Counting a destroyed object is undefined. -/
def addRef (h : Heap) (a : Nat) : Res Heap := match h[a]? with
  | none => .ub
  | some c => if c.cnt = 0 then .ub else .ok (h.set a { c with cnt := c.cnt + 1 })

/-- `operator delete` (container.h:183-185, key.cpp:30-32, value.cpp:370-372). -/
def dealloc (h : Heap) (a : Nat) : Res Heap := match h[a]? with
  | none => .ub
  | some c => .ok (h.set a { c with freed := c.freed + 1 })

/-- `Container::clear` (container.h:152-156) run by the destructor (container.h:90-92): pointers are destroyed from the last one. `rel` destroys
one pointer. The destructor of a proxy destroys its only one. -/
def clear (rel : Heap → Nat → Res Heap) (h : Heap) (items : List Nat) : Res Heap :=
  items.reverse.foldlM rel h

/-- A pointer to `a` is destroyed. The first number is the number of frames left on the stack for the destructors; without one the program
ends. -/
def release : Nat → Heap → Nat → Res Heap
  | 0, _, _ => .abort
  | lim + 1, h, a => match h[a]? with
    | none => .ub
    | some c =>
      if c.cnt = 0 then .ub
      else if c.cnt = 1 then do
        let h ← clear (release lim) (h.set a { c with cnt := 0 }) c.kids
        dealloc h a
      else .ok (h.set a { c with cnt := c.cnt - 1 })

/-- The program: memory and the pointers held by its variables. -/
structure St where
  heap : Heap
  vars : List Nat
deriving Repr, DecidableEq

/-- Object 0 is the undefined value, it has counted itself (abstractValue.cpp:5-16). Other shared values (basicValues.cpp:6-11, 56-100) are held
by a variable of the library that is never destroyed here; they can be made with `make []` and kept. -/
def init : St := ⟨[⟨1, [], 0⟩], []⟩

/-- What programs do with values. `make` – an array, an object or a proxy is made of values of variables (value.cpp:54-59, 378-414;
key.h:20); items are put into a container before any other value can refer to it, so that is one step here. `copy` – a copy of a
`Value`. `item` – the item of a container is read into a new variable; a wrong index gives the undefined value (arrayValue.cpp:16-20,
objectValue.cpp:13-17), of a proxy the value behind it. `drop` – a variable ends. Assignment is `copy` and `drop`. A variable that does not exist reads as undefined. -/
inductive Op where
  | make (items : List Nat)
  | copy (i : Nat)
  | item (i j : Nat)
  | drop (i : Nat)
deriving Repr, DecidableEq

/-- The pointer in a variable. -/
def var (s : St) (i : Nat) : Nat := (s.vars[i]?).getD 0

/-- `itemAtIndex` (arrayValue.cpp:16-20). -/
def itemAt (h : Heap) (a j : Nat) : Nat := match h[a]? with
  | none => 0
  | some c => (c.kids[j]?).getD 0

/-- A copy of a pointer is put into a new variable. -/
def take (s : St) (a : Nat) : Res St := do
  let h ← addRef s.heap a
  .ok ⟨h, s.vars ++ [a]⟩

/-- `Container::push_back` (container.h:123-131) of each item copies its pointer; the new object is held by the new variable. -/
def make (s : St) (items : List Nat) : Res St := do
  let h ← items.foldlM addRef s.heap
  .ok ⟨h ++ [⟨1, items, 0⟩], s.vars ++ [h.length]⟩

/-- One step on a stack of `lim` frames. -/
def step (lim : Nat) (s : St) : Op → Res St
  | .make is => make s (is.map (var s))
  | .copy i => take s (var s i)
  | .item i j => take s (itemAt s.heap (var s i) j)
  | .drop i => match s.vars[i]? with
    | none => .ok s
    | some a => do
      let h ← release lim s.heap a
      .ok ⟨h, s.vars.eraseIdx i⟩

/-- A program. -/
def run (lim : Nat) (s : St) (ops : List Op) : Res St := ops.foldlM (step lim) s

end Imt.RefHeap
