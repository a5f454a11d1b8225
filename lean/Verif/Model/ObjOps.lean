import Verif.Model.ObjB
import Verif.Model.ValueOps
/-!
# Operations of `Value` and of the builders on members (`operations.h`, `value.h`)

Items carry the key bound to them. `isDef` is `Value::defined`, `undef` the undefined value.
-/
namespace Imt.ObjOps
open Imt Imt.Obj Imt.ObjB

variable {α : Type}

/-- A value and the key bound to it; `none` when `flags() & proxy` is zero (key.h:23). -/
abbrev Item (α : Type) := Option Bytes × α

/-- `Value::getKey` (value.h:387, key.h:50, abstractValue.h:27). -/
def keyOf (v : Item α) : Bytes := v.1.getD []

/-- `Value(key, value)`, `setKey` (object.cpp:27-35, 409, value.h:411). -/
def bindKey (k : Bytes) (v : Item α) : Item α :=
  if k = [] then (none, v.2) else if k = keyOf v then v else (some k, v.2)

/-- `Value::stripKey` (value.h:396). -/
def stripKey (v : Item α) : Item α := (none, v.2)

/-- One step of `Object::map` (operations.h:496-501): the key of the item is used unless the result has one. -/
def mapItem (f : Item α → Item α) (item : Item α) : Item α :=
  let v := f item
  if v.1.isNone then bindKey (keyOf item) v else v

/-- `Object::map` (operations.h:493-504) and the conversion of its result to a value (value.cpp:313-315): `src` are the
items the enumeration shows. -/
def mapToObject (f : Item α → Item α) (isDef : α → Bool) (src : List (Item α)) : Members α :=
  (commit isDef (src.foldl (fun o x => setInternal isDef o (keyOf (mapItem f x), (mapItem f x).2)) new)).1

/-- `Array::map` (operations.h:416-423) on any items. -/
def mapToArray (f : Item α → Item α) (isDef : α → Bool) (undef : α) (src : List (Item α)) : Res (List (Item α)) :=
  ArrB.commit (fun v => isDef v.2) (none, undef) (src.foldl (fun o x => ArrB.add o (f x)) ArrB.new)

/-- Items of an object, as enumerated. A member with the empty key is shown with a key here, whether its object has
one (object.cpp:125) or not (object.cpp:29) cannot be told from the key. -/
def items (ms : Members α) : List (Item α) := ms.map (fun m => (some m.1, m.2))

/-- `Value::map` of an object (operations.h:339): the builder made of it is enumerated (object.cpp:239-246). -/
def objMap (f : Item α → Item α) (isDef : α → Bool) (ms : Members α) : Members α :=
  mapToObject f isDef (items (iterate isDef (ofBase ms)).1)

/-- `Value::filter` of an object (operations.h:570-581). -/
def objFilter (p : Item α → Nat → Bool) (isDef : α → Bool) (ms : Members α) : Members α :=
  mkObject isDef true ((((items ms).zipIdx).filter (fun x => p x.1 x.2)).map (fun x => (keyOf x.1, x.1.2)))

/-- `Value(object, begin, end, mapFn, skipUndef)` (value.h:1265-1273). -/
def objRange {β : Type} (f : β → Item α) (isDef : α → Bool) (skipUndef : Bool) (l : List β) : Members α :=
  mkObject isDef skipUndef (l.map (fun x => (keyOf (f x), (f x).2)))

/-- `genSort` (operations.h:441-453) as used by `Array::sort` and `Object::sort` (operations.h:456-458, 510-514), and the
conversion of the result to a value. `srt` stands for `std::sort` with the comparison of the builder. -/
def genSort (srt : List (Item α) → List (Item α)) (isDef : α → Bool) (undef : α) (src : List (Item α)) : Res (List (Item α)) :=
  let out := src.foldl ArrB.add ArrB.new
  ArrB.commit (fun v => isDef v.2) (none, undef) { out with changes := (srt (out.changes.filterMap id)).map some }

/-- `genReduce` (operations.h:425-432) as used by `Object::reduce` (operations.h:505-508). -/
def objReduce {β : Type} (f : β → Item α → β) (isDef : α → Bool) (ms : Members α) (init : β) : β :=
  (items (iterate isDef (ofBase ms)).1).foldl f init

/-- `Value::operator[](name)` of an object (value.h, objectValue.cpp:16-28): the member comes with its key. -/
def memberItem (undef : α) (ms : Members α) (k : Bytes) : Item α :=
  match Obj.member ms k with
  | some v => (some k, v)
  | none => (none, undef)

end Imt.ObjOps
