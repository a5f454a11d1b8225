import Verif.Model.ObjB
/-!
# Containers of fixed capacity (`container.h`) and the loops that fill them

An `ArrayValue` or `ObjectValue` keeps its items behind its own fields in one block of memory (`Container<PValue>`); the
capacity is fixed when the block is allocated, and a `push_back` into a full container does nothing but return false.
-/
namespace Imt.Ctr
open Imt Imt.Obj Imt.ObjB

variable {τ α : Type}

/-- `Container` (container.h:70-73). -/
structure Ctr (τ : Type) where
  cap : Nat
  items : List τ
deriving Repr, DecidableEq

/-- `Container::create` (container.h:187-191) and `ArrayValue::create`, `ObjectValue::create` (arrayValue.cpp:30-33,
objectValue.cpp:73-76). -/
def create (cap : Nat) : Ctr τ := ⟨cap, []⟩

/-- `push_back` (container.h:122-142): the container and the result. -/
def push (c : Ctr τ) (x : τ) : Ctr τ × Bool :=
  if c.items.length < c.cap then ({ c with items := c.items ++ [x] }, true) else (c, false)

/-- `pop_back` (container.h:144-149). -/
def pop (c : Ctr τ) : Ctr τ := { c with items := c.items.dropLast }

/-- `clear` (container.h:151-156). -/
def clear (c : Ctr τ) : Ctr τ := { c with items := [] }

/-- `shrink` (container.h:194-197): `pop_back` until the size is not above. -/
def shrink (c : Ctr τ) (n : Nat) : Nat → Ctr τ
  | 0 => c
  | k + 1 => if n < c.items.length then shrink (pop c) n k else c

/-- Operations of a container. -/
inductive COp (τ : Type) where
  | push (x : τ)
  | pop
  | clear
  | shrink (n : Nat)
deriving Repr

/-- One operation; `shrink` runs at most `size()` times. -/
def step (c : Ctr τ) : COp τ → Ctr τ
  | .push x => (push c x).1
  | .pop => pop c
  | .clear => clear c
  | .shrink n => shrink c n c.items.length

/-- A run of operations. -/
def run (c : Ctr τ) (ops : List (COp τ)) : Ctr τ := ops.foldl step c

/-- Size of the block (container.h:168-174), `hdr` bytes for the fields and eight for each item, computed in 64 bits. -/
def blockSize (hdr cap : Nat) : Nat := (hdr + cap * 8) % 2 ^ 64

/-- The items an operation constructs or destroys (container.h:125, 136, 147, 154). -/
def touches (c : Ctr τ) : COp τ → List Nat
  | .push _ => if c.items.length < c.cap then [c.items.length] else []
  | .pop => if 0 < c.items.length then [c.items.length - 1] else []
  | .clear => List.range c.items.length
  | .shrink n => (List.range c.items.length).filter (n ≤ ·)

/-- Pushes in a loop whose result is not looked at. -/
def pushAll (c : Ctr τ) (l : List τ) : Ctr τ := l.foldl (fun c x => (push c x).1) c

/-- `Value(array, values, skipUndef)` (value.cpp:381-389). -/
def fillArray (isDef : τ → Bool) (skipUndef : Bool) (values : List τ) : Ctr τ :=
  values.foldl (fun c v => if !skipUndef || isDef v then (push c v).1 else c) (create values.length)

/-- `Value(StringView<Value>)` (value.cpp:54-59). -/
def fillView (values : List τ) : Ctr τ := pushAll (create values.length) values

/-- Loop of `Value(object, values, skipUndef)` (value.cpp:394-407). -/
def fillLoop (isDef : α → Bool) (skipUndef : Bool) : Bytes → Ctr (Bytes × α) → Bool → Members α → Ctr (Bytes × α) × Bool
  | _, c, ordered, [] => (c, ordered)
  | last, c, ordered, m :: ms =>
    if !skipUndef || isDef m.2 then
      if cmpBytes last m.1 = .gt then fillLoop isDef skipUndef m.1 (push c m).1 false ms
      else if cmpBytes last m.1 = .eq then
        fillLoop isDef skipUndef m.1 (push (if c.items ≠ [] then pop c else c) m).1 ordered ms
      else fillLoop isDef skipUndef m.1 (push c m).1 ordered ms
    else fillLoop isDef skipUndef last c ordered ms

/-- `ObjectValue::sort` (objectValue.cpp:53-71) works inside the container and shrinks it. -/
def sortIn (c : Ctr (Bytes × α)) : Ctr (Bytes × α) := { c with items := Obj.sort c.items }

/-- `Value(object, values, skipUndef)` (value.cpp:390-413). -/
def fillObject (isDef : α → Bool) (skipUndef : Bool) (values : Members α) : Ctr (Bytes × α) :=
  let r := fillLoop isDef skipUndef [] (create values.length) true values
  if r.2 then r.1 else sortIn r.1

/-- Loops of `applyDiffImpl` (object.cpp:345-380). -/
def diffLoop (isDef : α → Bool) (mergeFn : α → α → α) (createDiff : Bool) : Members α → Members α → Ctr (Bytes × α) → Ctr (Bytes × α)
  | [], ds, c => ds.foldl (fun c d => pushAll c (onlyDiff isDef createDiff d)) c
  | b :: bs, [], c => pushAll c (b :: bs)
  | b :: bs, d :: ds, c => match cmpBytes b.1 d.1 with
    | .lt => diffLoop isDef mergeFn createDiff bs (d :: ds) (push c b).1
    | .gt => diffLoop isDef mergeFn createDiff (b :: bs) ds (pushAll c (onlyDiff isDef createDiff d))
    | .eq => diffLoop isDef mergeFn createDiff bs ds (pushAll c (bothDiff isDef mergeFn createDiff b d))
termination_by bs ds => bs.length + ds.length

/-- `applyDiffImpl` (object.cpp:323-383). -/
def applyDiff (isDef : α → Bool) (mergeFn : α → α → α) (createDiff : Bool) (bs ds : Members α) : Ctr (Bytes × α) :=
  diffLoop isDef mergeFn createDiff bs ds (create (bs.length + ds.length))

/-- Loops of `Value::setItems` (value.cpp:891-924). -/
def setLoop (isDef : α → Bool) : Members α → Members α → Ctr (Bytes × α) → Ctr (Bytes × α)
  | [], ds, c => ds.foldl (fun c d => if isDef d.2 then (push c d).1 else c) c
  | b :: bs, [], c => pushAll c (b :: bs)
  | b :: bs, d :: ds, c => match cmpBytes b.1 d.1 with
    | .lt => setLoop isDef bs (d :: ds) (push c b).1
    | .gt => setLoop isDef (b :: bs) ds (if isDef d.2 then (push c d).1 else c)
    | .eq => setLoop isDef bs ds (if isDef d.2 then (push c d).1 else c)
termination_by bs ds => bs.length + ds.length

/-- `Value::setItems` (value.cpp:882-927); the updates are sorted first. -/
def setItems (isDef : α → Bool) (v fields : Members α) : Ctr (Bytes × α) :=
  setLoop isDef v (Obj.stableSort fields) (create (fields.length + v.length))

/-- `Object(initializer_list)` (object.cpp:411-421): the base of the builder. -/
def ofFields (isDef : α → Bool) (fields : Members α) : Ctr (Bytes × α) :=
  sortIn (fields.foldl (fun c m => if isDef m.2 then (push c m).1 else c) (create fields.length))

end Imt.Ctr
