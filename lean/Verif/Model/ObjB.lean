import Verif.Model.ObjCore
import Verif.Model.Value
/-!
# Object builder (`object.h`, `object.cpp`)

The member values are a parameter: `isDef` is `Value::defined`, `undef` the undefined value. A builder has a base object
and the recorded changes: an ordered container and an unordered one that is sorted into the former from time to time.
Containers have a fixed capacity (`container.h`); a push into a full one is refused. Sharing of containers between
builders is the subject of `Model/ObjHeap.lean`; here they are plain values.
-/
namespace Imt.ObjB
open Imt Imt.Obj

variable {α : Type}

/-- What the two loops of `applyDiffImpl` that meet a key only present in the diff write
(object.cpp:351-356, 374-378). `merge2` returns its argument (object.cpp:340-343): the test `nw.type() & valueDiff` is never true, types are 0..6 and
`valueDiff` is 16 (ivalue.h:15-32, 90). -/
def onlyDiff (isDef : α → Bool) (createDiff : Bool) (d : Bytes × α) : Members α :=
  if isDef d.2 then [d] else if createDiff then [d] else []

/-- What it writes for a common key (object.cpp:359-364). `merge` binds the old key to `mergeFn(old, nw)`
(object.cpp:335-338, same remark on the test of `valueDiff`). -/
def bothDiff (isDef : α → Bool) (mergeFn : α → α → α) (createDiff : Bool) (b d : Bytes × α) : Members α :=
  if isDef d.2 then [(b.1, mergeFn b.2 d.2)] else if createDiff then [d] else []

/-- The main loop for a fixed base item, `r` continues with the next base item. -/
def mergeStep (isDef : α → Bool) (mergeFn : α → α → α) (createDiff : Bool) (r : Members α → Members α) (b : Bytes × α)
    (bs : Members α) : Members α → Members α
  | [] => b :: bs
  | d :: ds => match cmpBytes b.1 d.1 with
    | .lt => b :: r (d :: ds)
    | .gt => onlyDiff isDef createDiff d ++ mergeStep isDef mergeFn createDiff r b bs ds
    | .eq => bothDiff isDef mergeFn createDiff b d ++ r ds

/-- `applyDiffImpl` (object.cpp:323-383): the capacity is the sum of both sizes, so no push is refused. `createDiff`
is the diff flag of the base. -/
def applyDiffImpl (isDef : α → Bool) (mergeFn : α → α → α) (createDiff : Bool) : Members α → Members α → Members α
  | [] => fun ds => ds.flatMap (onlyDiff isDef createDiff)
  | b :: bs => mergeStep isDef mergeFn createDiff (applyDiffImpl isDef mergeFn createDiff bs) b bs

/-- `Object::defaultMerge` (object.cpp:16-18). -/
def defaultMerge (_ : α) (v : α) : α := v

/-- `ObjectValue` as a container under construction. -/
structure Cont (α : Type) where
  cap : Nat
  items : Members α
deriving Repr, DecidableEq

/-- `Container::push_back` (container.h:122-142). -/
def Cont.push (c : Cont α) (m : Bytes × α) : Option (Cont α) :=
  if c.items.length < c.cap then some { c with items := c.items ++ [m] } else none

/-- `Object` (object.h:318-335). The base is an object (`baseDiff`: its diff flag), `ordered` always carries the diff
flag (object.cpp:184, 328), `snap` is `lastIterSnapshot` (`none` when undefined). -/
structure OB (α : Type) where
  base : Members α
  baseDiff : Bool := false
  ordered : Option (Members α) := none
  unordered : Option (Cont α) := none
  snap : Option (Members α) := none
deriving Repr, DecidableEq

/-- `Object(Value)` (object.cpp:50-52). -/
def ofBase (b : Members α) (diff : Bool := false) : OB α := { base := b, baseDiff := diff }

/-- `Object()` (object.cpp:54-56). -/
def new : OB α := { base := [] }

/-- `Object::optimize` (object.cpp:177-195). -/
def optimize (isDef : α → Bool) (s : OB α) : OB α :=
  match s.unordered with
  | none => s
  | some u =>
    if u.items.length = 0 then s
    else
      let srt := Obj.sort u.items
      match s.ordered with
      | none => { s with ordered := some srt, unordered := some { u with items := [] } }
      | some o => { s with ordered := some (applyDiffImpl isDef defaultMerge true o srt),
                           unordered := some { u with items := [] } }

/-- `Object::set_internal` (object.cpp:94-109). -/
def setInternal (isDef : α → Bool) (s : OB α) (m : Bytes × α) : OB α :=
  let s := { s with snap := none }
  let u := s.unordered.getD { cap := 8, items := [] }
  match u.push m with
  | some u' => { s with unordered := some u' }
  | none =>
    let newcont : Cont α := { cap := u.items.length * 2, items := [] }
    let s := optimize isDef { s with unordered := some u }
    { s with unordered := some ((newcont.push m).getD newcont) }

/-- `Object::set(name, value)`, `Object::set(value)` with the key of the value, `operator()` (object.cpp:111-133, 166-168). -/
def set (isDef : α → Bool) (s : OB α) (k : Bytes) (v : α) : OB α := setInternal isDef s (k, v)

/-- `Object::unset` (object.cpp:135-138). -/
def unset (isDef : α → Bool) (undef : α) (s : OB α) (k : Bytes) : OB α := set isDef s k undef

/-- Backward search of the unordered part (object.cpp:148-151). -/
def findLast (l : Members α) (k : Bytes) : Option α := (l.reverse.find? (fun m => m.1 == k)).map (·.2)

/-- First part of `Object::operator[]` (object.cpp:142-147): the builder and the unordered members still to be searched.
Asking a missing `ordered` for its size is undefined behaviour. -/
def getPrep (isDef : α → Bool) (s : OB α) (u : Cont α) : Res (OB α × Members α) :=
  if u.items.length > 16 then
    match s.ordered with
    | none => Res.ub
    | some o => .ok (if u.items.length > o.length / 2 then (optimize isDef s, ([] : Members α)) else (s, u.items))
  else .ok (s, u.items)

/-- `Object::operator[]` (object.cpp:140-160): the value and the builder afterwards. -/
def get (isDef : α → Bool) (undef : α) (s : OB α) (k : Bytes) : Res (α × OB α) :=
  match s.unordered with
  | none => .ok ((Obj.member s.base k).getD undef, s)
  | some u => do
    let r ← getPrep isDef s u
    match findLast r.2 k with
    | some v => pure (v, r.1)
    | none =>
      match r.1.ordered with
      | none => pure ((Obj.member r.1.base k).getD undef, r.1)
      | some o =>
        match (Obj.findSorted o k 0 o.length).map (·.2) with
        | some v => pure (v, r.1)
        | none => pure ((Obj.member r.1.base k).getD undef, r.1)

/-- `Object::applyDiff` (object.cpp:306-311) on objects; `baseDiff` is the diff flag of the base. -/
def applyDiff (isDef : α → Bool) (baseDiff : Bool) (b d : Members α) : Members α :=
  applyDiffImpl isDef defaultMerge baseDiff b d

/-- `Object::commit` (object.cpp:198-205): the value and the builder afterwards. -/
def commit (isDef : α → Bool) (s : OB α) : Members α × OB α :=
  let s := optimize isDef s
  match s.ordered with
  | none => (s.base, s)
  | some o => (applyDiff isDef s.baseDiff s.base o, s)

/-- `Object::commitAsDiff` (object.cpp:300-304, 395-398): the members; an empty object when nothing is recorded. -/
def commitAsDiff (isDef : α → Bool) (s : OB α) : Members α × OB α :=
  let s := optimize isDef s
  (s.ordered.getD [], s)

/-- `Object::revert` (object.cpp:234-237). -/
def revert (s : OB α) : OB α := { s with ordered := none, unordered := none }

/-- `Object::clear` (object.cpp:216-220). -/
def clear (s : OB α) : OB α := revert { s with base := [], baseDiff := false }

/-- `Object::setBaseObject` (object.h:206-208). -/
def setBase (s : OB α) (b : Members α) (diff : Bool := false) : OB α := { s with base := b, baseDiff := diff }

/-- `Object::dirty` (object.cpp:221-224). -/
def dirty (s : OB α) : Bool :=
  (match s.ordered with | none => false | some o => !o.isEmpty) ||
  (match s.unordered with | none => false | some u => !u.items.isEmpty)

/-- `Object::merge(Value)` (object.cpp:225-231). -/
def merge (isDef : α → Bool) (s : OB α) (ms : Members α) : OB α := ms.foldl (fun s m => setInternal isDef s m) s

/-- `Object::begin()` … `Object::end()` (object.cpp:239-246): the enumerated members. -/
def iterate (isDef : α → Bool) (s : OB α) : Members α × OB α :=
  match s.snap with
  | some l => (l, s)
  | none =>
    let r := commit isDef s
    (r.1, { r.2 with snap := some r.1 })

/-- `Object(const Object &)` (object.cpp:70-73): the copy; the source is optimised. -/
def copy (isDef : α → Bool) (s : OB α) : OB α × OB α :=
  let r := commitAsDiff isDef s
  ({ base := s.base, baseDiff := s.baseDiff, ordered := r.2.ordered,
     unordered := r.2.ordered.map (fun o => { cap := o.length, items := [] }) }, r.2)

/-- `operator=(const Object &)` (object.cpp:75-82): the iteration snapshot of the target stays. -/
def assign (isDef : α → Bool) (t s : OB α) : OB α × OB α :=
  let r := copy isDef s
  ({ r.1 with snap := t.snap }, r.2)

/-- `Object::size` (object.cpp:391-393). -/
def size (s : OB α) : Nat :=
  s.base.length + (match s.ordered with | none => 0 | some o => o.length) +
    (match s.unordered with | none => 0 | some u => u.items.length)

/-- The loops of `Object::createDiff` (object.cpp:264-296) for a fixed old item, `r` continues with the next old item: the
list of recorded members, in order. `common d b` is what is recorded for a common key (new item first). -/
def diffStep (common : Bytes × α → Bytes × α → Members α) (undef : α) (r : Members α → Members α) (b : Bytes × α)
    (bs : Members α) : Members α → Members α
  | [] => (b :: bs).map (fun m => (m.1, undef))
  | d :: ds => match cmpBytes b.1 d.1 with
    | .lt => (b.1, undef) :: r (d :: ds)
    | .gt => d :: diffStep common undef r b bs ds
    | .eq => common d b ++ r ds

/-- See `diffStep`. -/
def diffItems (common : Bytes × α → Bytes × α → Members α) (undef : α) : Members α → Members α → Members α
  | [] => fun ds => ds
  | b :: bs => diffStep common undef (diffItems common undef bs) b bs

/-- A common key with `recursive = 0` (object.cpp:280-282); `neq` is `operator!=`. -/
def common0 (neq : α → α → Bool) (d b : Bytes × α) : Members α := if neq d.2 b.2 then [d] else []

/-- Recording a list of members in a builder: every `set` of `createDiff`. -/
def record (isDef : α → Bool) (s : OB α) (l : Members α) : OB α := l.foldl (fun s m => setInternal isDef s m) s

/-- `Object::createDiff(old, new)` with `recursive = 0` into a builder (object.cpp:251-298). -/
def createDiff (isDef : α → Bool) (neq : α → α → Bool) (undef : α) (s : OB α) (old new : Members α) : OB α :=
  record isDef s (diffItems (common0 neq) undef old new)

/-- `Value::defined` on trees. -/
def defd : JV → Bool
  | .undef => false
  | _ => true

/-- Members recorded by `createDiff(old, new, n)` (object.cpp:251-298): for a common key with objects on both sides the
diff of these is recorded by `set(obj.commitAsDiff())`, a value that carries no key, hence under the empty key
(object.cpp:273-279, 129-133). -/
def diffR (neq : JV → JV → Bool) : Nat → Members JV → Members JV → Members JV
  | 0 => diffItems (common0 neq) .undef
  | n + 1 => diffItems (fun d b => match b.2, d.2 with
      | .obj bb, .obj dd => [([], .obj (commitAsDiff defd (record defd new (diffR neq n bb dd))).1)]
      | _, _ => common0 neq d b) .undef

/-- `Object::createDiff(old, new, n)` followed by `commitAsDiff`. -/
def makeDiff (neq : JV → JV → Bool) (n : Nat) (old new : Members JV) : Members JV :=
  (commitAsDiff defd (record defd ObjB.new (diffR neq n old new))).1

/-- `Value::setItems` (value.cpp:882-927). `std::sort` of the updates leaves the order of equal keys open; here it is
the order of the list. The capacity is the sum of both sizes. -/
def setItemsStep (isDef : α → Bool) (r : Members α → Members α) (b : Bytes × α) (bs : Members α) :
    Members α → Members α
  | [] => b :: bs
  | d :: ds => match cmpBytes b.1 d.1 with
    | .lt => b :: r (d :: ds)
    | .gt => (if isDef d.2 then [d] else []) ++ setItemsStep isDef r b bs ds
    | .eq => (if isDef d.2 then [d] else []) ++ r ds

/-- See `setItemsStep`. -/
def setItemsLoop (isDef : α → Bool) : Members α → Members α → Members α
  | [] => fun ds => ds.filter (fun d => isDef d.2)
  | b :: bs => setItemsStep isDef (setItemsLoop isDef bs) b bs

/-- `Value::setItems` (value.cpp:882-927). -/
def setItems (isDef : α → Bool) (v : Members α) (fields : Members α) : Members α :=
  setItemsLoop isDef v (Obj.stableSort fields)

end Imt.ObjB
