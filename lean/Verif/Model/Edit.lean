import Verif.Model.ObjB
import Verif.Model.ArrayB
/-!
# Editors of members (`edit.h`) and references to members (`valueref.cpp`)

An editor is a builder that writes its content into the builder it was made from. The parent is accessed through a C++
reference; here the functions take it and return it.
-/
namespace Imt.Edit
open Imt Imt.Obj
open Imt.ObjB (OB defd)
open Imt.ArrB (AB)

/-- What `Object(Value)` takes over from a value (object.cpp:50-52): for a value that is not an object `operator[]` finds nothing
and `applyDiff` starts with an empty object (object.cpp:308). -/
def objBase : JV → Members JV
  | .obj ms => ms
  | _ => []

/-- What `Array(Value)` takes over from a value (array.cpp:8-10, 177-186): the items `Value::size()` and `operator[]` show. -/
def arrBase : JV → List JV
  | .arr l => l
  | .obj ms => ms.map (·.2)
  | _ => []

/-- `Object::object(name)` (object.cpp:208-211, edit.h:12-13): the editor and the parent. -/
def openOO (s : OB JV) (k : Bytes) : Res (OB JV × OB JV) := do
  let r ← ObjB.get defd .undef s k
  pure (ObjB.ofBase (objBase r.1), r.2)

/-- `Object::array(name)` (object.cpp:212-215). -/
def openAO (s : OB JV) (k : Bytes) : Res (AB JV × OB JV) := do
  let r ← ObjB.get defd .undef s k
  pure (ArrB.ofBase (arrBase r.1), r.2)

/-- `Array::object(pos)` (array.cpp:164-167). -/
def openOA (s : AB JV) (i : Nat) : Res (OB JV) := do
  let v ← ArrB.get .undef s i
  pure (ObjB.ofBase (objBase v))

/-- `Array::array(pos)` (array.cpp:168-171). -/
def openAA (s : AB JV) (i : Nat) : Res (AB JV) := do
  let v ← ArrB.get .undef s i
  pure (ArrB.ofBase (arrBase v))

/-- Destructor of an `Object2Object` (edit.h:14-18): the parent afterwards. -/
def closeOO (s : OB JV) (k : Bytes) (e : OB JV) : OB JV :=
  if ObjB.dirty e then ObjB.set defd s k (.obj (ObjB.commit defd e).1) else s

/-- Destructor of an `Array2Object` (edit.h:14-18). -/
def closeAO (s : OB JV) (k : Bytes) (e : AB JV) : Res (OB JV) :=
  if ArrB.dirty e then do
    let l ← ArrB.commit defd .undef e
    pure (ObjB.set defd s k (.arr l))
  else .ok s

/-- Destructor of an `Object2Array` (edit.h:14-18). -/
def closeOA (s : AB JV) (i : Nat) (e : OB JV) : Res (AB JV) :=
  if ObjB.dirty e then ArrB.set .undef s i (.obj (ObjB.commit defd e).1) else .ok s

/-- Destructor of an `Array2Array` (edit.h:14-18). -/
def closeAA (s : AB JV) (i : Nat) (e : AB JV) : Res (AB JV) :=
  if ArrB.dirty e then do
    let l ← ArrB.commit defd .undef e
    ArrB.set .undef s i (.arr l)
  else .ok s

/-- `commit()` of an `Object2Object` (edit.h:19-24): parent and editor. -/
def commitOO (s : OB JV) (k : Bytes) (e : OB JV) : OB JV × OB JV :=
  (closeOO s k e, if ObjB.dirty e then ObjB.revert e else e)

/-- `commit()` of an `Array2Object` (edit.h:19-24). -/
def commitAO (s : OB JV) (k : Bytes) (e : AB JV) : Res (OB JV × AB JV) := do
  let s' ← closeAO s k e
  pure (s', if ArrB.dirty e then ArrB.revert e else e)

/-- `ValueRef(Object &, name)` and `sync()` of such a reference (valueref.cpp:15-24, 69-71): the value kept in the reference and
the object. The value carries the key; the key of a reference never changes, so it is kept beside. -/
def refObj (s : OB JV) (k : Bytes) : Res (JV × OB JV) := ObjB.get defd .undef s k

/-- Assignment to such a reference (valueref.cpp:37-42): value kept and object. -/
def assignObj (s : OB JV) (k : Bytes) (v : JV) : JV × OB JV := (v, ObjB.set defd s k v)

/-- `ValueRef(Array &, index)` and its `sync()` (valueref.cpp:25-29, 75-77). -/
def refArr (s : AB JV) (i : Nat) : Res JV := ArrB.get .undef s i

/-- Assignment to such a reference (valueref.cpp:47-50). -/
def assignArr (s : AB JV) (i : Nat) (v : JV) : Res (JV × AB JV) := do
  let s' ← ArrB.set .undef s i v
  pure (v, s')

end Imt.Edit
