import Verif.Model.ObjB
/-!
# Object builders on a heap of shared containers

`Model/ObjB.lean` treats containers as plain values. Here they are cells of a heap (`RefCntPtr<ObjectValue>`): builders and
values hold identities, `push_back`, `sort`, `clear` write the cell in place, copies and `commitAsDiff` share cells
(object.cpp:70-82, 94-109, 177-205, 300-304, 395-398). Reference counting only decides when a cell is freed, which no
holder of a reference can see; cells are never freed here.
-/
namespace Imt.ObjHeap
open Imt Imt.Obj Imt.ObjB

/-- `ObjectValue` in memory. -/
structure Cell (α : Type) where
  cap : Nat
  items : Members α
  diff : Bool

/-- The heap: the cells below `next` exist. -/
structure Heap (α : Type) where
  cells : Nat → Cell α
  next : Nat

variable {α : Type}

/-- Write a cell. -/
def Heap.put (h : Heap α) (i : Nat) (c : Cell α) : Heap α := { h with cells := fun x => if x = i then c else h.cells x }

/-- `ObjectValue::create` (objectValue.cpp:73-76, container.h:165-190), filled at once. -/
def Heap.alloc (h : Heap α) (c : Cell α) : Heap α := { cells := fun x => if x = h.next then c else h.cells x, next := h.next + 1 }

/-- `Object` (object.h:318-335). -/
structure HB where
  base : Nat
  ordered : Option Nat := none
  unordered : Option Nat := none
  snap : Option Nat := none

/-- `Object::optimize` (object.cpp:177-195): the unordered cell is sorted in place, a new ordered cell is made, the
unordered one is cleared in place. -/
def optimize (isDef : α → Bool) (h : Heap α) (b : HB) : Heap α × HB :=
  match b.unordered with
  | none => (h, b)
  | some u =>
    let c := h.cells u
    if c.items.length = 0 then (h, b)
    else
      let h := h.put u { c with items := Obj.sort c.items }
      let us := (h.cells u).items
      match b.ordered with
      | none =>
        let n := h.next
        let h := h.alloc ⟨us.length, us, true⟩
        (h.put u { h.cells u with items := [] }, { b with ordered := some n })
      | some o =>
        let oc := h.cells o
        let n := h.next
        let h := h.alloc ⟨oc.items.length + us.length, applyDiffImpl isDef defaultMerge oc.diff oc.items us, oc.diff⟩
        (h.put u { h.cells u with items := [] }, { b with ordered := some n })

/-- `Object::set_internal` (object.cpp:94-109). -/
def setInternal (isDef : α → Bool) (h : Heap α) (b : HB) (m : Bytes × α) : Heap α × HB :=
  let b := { b with snap := none }
  -- unordered = ObjectValue::create(8)
  let p : Heap α × HB × Nat := match b.unordered with
    | some u => (h, b, u)
    | none => (h.alloc ⟨8, [], false⟩, { b with unordered := some h.next }, h.next)
  let h := p.1
  let b := p.2.1
  let u := p.2.2
  let c := h.cells u
  if c.items.length < c.cap then (h.put u { c with items := c.items ++ [m] }, b)
  else
    let n := h.next
    let h := h.alloc ⟨c.items.length * 2, [], false⟩
    let r := optimize isDef h b
    let h := r.1
    let c := h.cells n
    ((if c.items.length < c.cap then h.put n { c with items := c.items ++ [m] } else h), { r.2 with unordered := some n })

/-- `Object::commit` (object.cpp:198-205): the identity of the result. -/
def commit (isDef : α → Bool) (h : Heap α) (b : HB) : Nat × Heap α × HB :=
  let r := optimize isDef h b
  let h := r.1
  let b := r.2
  match b.ordered with
  | none => (b.base, h, b)
  | some o =>
    let bc := h.cells b.base
    let oc := h.cells o
    (h.next, h.alloc ⟨bc.items.length + oc.items.length, applyDiff isDef bc.diff bc.items oc.items, bc.diff⟩, b)

/-- `Object::commitAsDiff` (object.cpp:300-304): the ordered cell itself, or the shared empty object (cell 0). -/
def commitAsDiff (isDef : α → Bool) (h : Heap α) (b : HB) : Nat × Heap α × HB :=
  let r := optimize isDef h b
  (r.2.ordered.getD 0, r.1, r.2)

/-- `Object(const Object &)` (object.cpp:70-73): the copy shares base and ordered cell. -/
def copy (isDef : α → Bool) (h : Heap α) (b : HB) : HB × Heap α × HB :=
  let r := optimize isDef h b
  let h := r.1
  match r.2.ordered with
  | none => ({ base := b.base }, h, r.2)
  | some o => ({ base := b.base, ordered := some o, unordered := some h.next },
      h.alloc ⟨(h.cells o).items.length, [], false⟩, r.2)

/-- `Object::begin` (object.cpp:239-242): the identity of the enumerated value. -/
def iterate (isDef : α → Bool) (h : Heap α) (b : HB) : Nat × Heap α × HB :=
  match b.snap with
  | some v => (v, h, b)
  | none =>
    let r := commit isDef h b
    (r.1, r.2.1, { r.2.2 with snap := some r.1 })

/-- Memory seen by a program: the heap, its builders (`none` after a move), and the values it ever got hold of. Value 0
is the shared empty object. -/
structure World (α : Type) where
  heap : Heap α
  builders : List (Option HB)
  vals : List Nat

/-- What a program can do. Builders and values are referred to by position; `mkValue` is the creation of a value by
anything else (parser, array builder – whose `commit` fills a new container, array.cpp:146-163 – or `Value` constructors). -/
inductive HOp (α : Type) where
  | mkValue (c : Cell α)
  | newB (v : Nat)
  | set (i : Nat) (k : Bytes) (v : α)
  | read (i : Nat) (k : Bytes)
  | commit (i : Nat)
  | commitAsDiff (i : Nat)
  | iterate (i : Nat)
  | clear (i : Nat)
  | revert (i : Nat)
  | setBase (i v : Nat)
  | merge (i v : Nat)
  | copy (i : Nat)
  | assign (i j : Nat)
  | move (i : Nat)
  | moveAssign (i j : Nat)

/-- `Object::merge` (object.cpp:225-231) of the value in cell `id`: `n` items are left, the next one is item `i`, read
from the heap at that moment. -/
def mergeLoop (isDef : α → Bool) (id : Nat) : Nat → Nat → Heap α → HB → Heap α × HB
  | 0, _, h, b => (h, b)
  | n + 1, i, h, b => match (h.cells id).items[i]? with
    | none => (h, b)
    | some m => mergeLoop isDef id n (i + 1) (setInternal isDef h b m).1 (setInternal isDef h b m).2

/-- The change `operator[]` makes (object.cpp:140-147): it may reorganise. -/
def readPrep (isDef : α → Bool) (h : Heap α) (b : HB) : Heap α × HB :=
  match b.unordered, b.ordered with
  | some u, some o =>
    if (h.cells u).items.length > 16 ∧ (h.cells u).items.length > (h.cells o).items.length / 2 then optimize isDef h b else (h, b)
  | _, _ => (h, b)

/-- Apply a function to builder `i`, which may hand out values; nothing happens when there is no such builder. -/
def World.act (w : World α) (i : Nat) (f : HB → Heap α × HB × List Nat) : World α :=
  match w.builders[i]? with
  | some (some b) => { heap := (f b).1, builders := w.builders.set i (some (f b).2.1), vals := w.vals ++ (f b).2.2 }
  | _ => w

/-- Copying builder `j`, the copy is handed to `put`. -/
def World.dup (isDef : α → Bool) (w : World α) (j : Nat) (put : List (Option HB) → HB → List (Option HB)) : World α :=
  match w.builders[j]? with
  | some (some s) =>
    let r := copy isDef w.heap s
    { w with heap := r.2.1, builders := put (w.builders.set j (some r.2.2)) r.1 }
  | _ => w

/-- Moving builder `j` away, the new builder is handed to `put`. -/
def World.away (w : World α) (j : Nat) (put : List (Option HB) → HB → List (Option HB)) : World α :=
  match w.builders[j]? with
  | some (some s) => { w with builders := put (w.builders.set j none) s }
  | _ => w

/-- One step. -/
def step (isDef : α → Bool) (w : World α) : HOp α → World α
  | .mkValue c => { heap := w.heap.alloc c, builders := w.builders, vals := w.vals ++ [w.heap.next] }
  | .newB v => match w.vals[v]? with
    | some id => { w with builders := w.builders ++ [some { base := id }] }
    | none => w
  | .set i k v => w.act i (fun b => let r := setInternal isDef w.heap b (k, v); (r.1, r.2, []))
  | .read i _ => w.act i (fun b => let r := readPrep isDef w.heap b; (r.1, r.2, []))
  | .commit i => w.act i (fun b => let r := commit isDef w.heap b; (r.2.1, r.2.2, [r.1]))
  | .commitAsDiff i => w.act i (fun b => let r := commitAsDiff isDef w.heap b; (r.2.1, r.2.2, [r.1]))
  | .iterate i => w.act i (fun b => let r := iterate isDef w.heap b; (r.2.1, r.2.2, []))
  | .clear i => w.act i (fun b => (w.heap, { b with base := 0, ordered := none, unordered := none }, []))
  | .revert i => w.act i (fun b => (w.heap, { b with ordered := none, unordered := none }, []))
  | .setBase i v => match w.vals[v]? with
    | some id => w.act i (fun b => (w.heap, { b with base := id }, []))
    | none => w
  | .merge i v => match w.vals[v]? with
    | some id => w.act i (fun b => let r := mergeLoop isDef id (w.heap.cells id).items.length 0 w.heap b; (r.1, r.2, []))
    | none => w
  | .copy i => w.dup isDef i (fun bs n => bs ++ [some { n with snap := none }])
  | .assign i j => if i = j then w else
      match w.builders[i]? with
      | some (some t) => w.dup isDef j (fun bs n => bs.set i (some { n with snap := t.snap }))
      | _ => w
  | .move i => w.away i (fun bs n => bs ++ [some { n with snap := none }])
  | .moveAssign i j => if i = j then w else
      match w.builders[i]? with
      | some (some t) => w.away j (fun bs n => bs.set i (some { n with snap := t.snap }))
      | _ => w

/-- A program. -/
def run (isDef : α → Bool) : List (HOp α) → World α → World α
  | [], w => w
  | op :: ops, w => run isDef ops (step isDef w op)

/-- The builder of `Model/ObjB.lean` a heap builder denotes. -/
def view (h : Heap α) (b : HB) : OB α :=
  { base := (h.cells b.base).items, baseDiff := (h.cells b.base).diff
    ordered := b.ordered.map (fun o => (h.cells o).items)
    unordered := b.unordered.map (fun u => ⟨(h.cells u).cap, (h.cells u).items⟩)
    snap := b.snap.map (fun s => (h.cells s).items) }

/-- The start of a program: the shared empty object. -/
def init : World α := { heap := { cells := fun _ => ⟨0, [], false⟩, next := 1 }, builders := [], vals := [0] }

end Imt.ObjHeap
