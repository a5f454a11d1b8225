import Verif.Model.Base
/-!
# Keys bound to values and custom objects (`key.h`, `key.cpp`, `object.cpp`, `wrap.h`, `value.h`)

The C++ objects behind a handle: an object that is neither a key holder nor a wrapper, a key holder (`AbstractProxy`) or a
wrapper of a custom object (`ObjWrap`). Objects have addresses; `fresh` is the address of a new one. Equality and order
of such values are in `Model/Equal.lean`, the encoding of binary strings in `Model/Binary.lean`.
-/
namespace Imt.Handle
open Imt

/-- What the read functions of `IValue` answer (ivalue.h:188-201): type, flags, the numbers, the truth value, the
characters, the size and the addresses of the items. -/
structure View where
  type : Nat
  flags : Nat
  uint : Nat
  int : Int
  num : Nat
  bool : Bool
  str : Bytes
  size : Nat
  item : Nat → Nat
  member : Bytes → Nat

/-- `proxy` (ivalue.h:83). -/
def proxyFlag : Nat := 8
/-- `customObject` (ivalue.h:107). -/
def customFlag : Nat := 64

/-- An object. `keyed` is an `ObjectProxy` (key.h:46-60), or an `ObjectProxyString` when `str` (key.h:62-71); `wrap` is an
`ObjWrap` (wrap.h:18-63) that holds a custom object of the type `ty` inside itself. -/
inductive Obj where
  | base (addr : Nat) (view : View)
  | keyed (addr : Nat) (str : Bool) (key : Bytes) (v : Obj)
  | wrap (addr : Nat) (ty : Nat) (v : Obj)

/-- The read functions: key holders and wrappers forward them and add their flag (key.h:22-35, wrap.h:25-38). -/
def view : Obj → View
  | .base _ w => w
  | .keyed _ _ _ v => { view v with flags := (view v).flags ||| proxyFlag }
  | .wrap _ _ v => { view v with flags := (view v).flags ||| customFlag }

/-- Address of the object. -/
def Obj.addr : Obj → Nat
  | .base a _ | .keyed a _ _ _ | .wrap a _ _ => a

/-- `flags() & proxy`. -/
def isProxy (v : Obj) : Bool := (view v).flags &&& proxyFlag != 0

/-- `getMemberName` (abstractValue.h:27, key.h:50, 66, wrap.h:41). -/
def keyOf : Obj → Bytes
  | .base _ _ => []
  | .keyed _ _ k _ => k
  | .wrap _ _ v => keyOf v

/-- `unproxy`, `Value::stripKey` (abstractValue.h:29, key.h:37, wrap.h:43, value.h:396). -/
def strip : Obj → Obj
  | .keyed _ _ _ v => strip v
  | v => v

/-- `bindKeyToPValue` (object.cpp:27-35): `Value(key, value)` (object.cpp:409), `setKey` (value.h:411), `key/"name" = value`
(value.h:1249-1261). -/
def bind (fresh : Nat) (k : Bytes) (v : Obj) : Obj :=
  if k = [] then strip v
  else if k = keyOf v then v
  else .keyed fresh false k (strip v)

/-- What `Object::set(name, value)` stores (object.cpp:111-128). -/
def stored (fresh : Nat) (k : Bytes) (v : Obj) : Obj :=
  if isProxy v then
    if keyOf v = k then v else .keyed fresh false k (strip v)
  else .keyed fresh false k v

/-- `makeValue` (wrap.h:118-122): the custom object is copied into the new object. -/
def makeValue (fresh ty : Nat) (v : Obj) : Obj := .wrap fresh ty (strip v)

/-- `getKeyObject` (key.cpp:35-45): `none` is the undefined value. -/
def getKeyObject (v : Obj) : Option Bytes :=
  if isProxy v then
    match v with
    | .keyed _ true k _ => some k
    | _ => none
  else none

/-- `cast<T>` (wrap.h:66-100, 135-138): the wrapper whose custom object is returned, `none` when nothing (or `bad_cast`)
is. `up a b` tells that a pointer to `a` can be caught as a pointer to `b`. -/
def cast (up : Nat → Nat → Bool) (ty : Nat) (v : Obj) : Option Nat :=
  match strip v with
  | .wrap a t _ => if t = ty then some a else if up t ty then some a else none
  | _ => none

/-- `Value::isCopyOf` (value.h:851-853). -/
def isCopyOf (v w : Obj) : Bool := (strip v).addr == (strip w).addr

/-- `Value::before` (value.h:882-884). -/
def before (v w : Obj) : Bool := decide ((strip v).addr < (strip w).addr)

/-- Objects with a character buffer at their end: `ObjectProxy` (key.cpp:17-26) and `PreciseNumberValue`
(stringValue.cpp:254-267). `sz` is the size of the class, the buffer of `buf` bytes is at the offset `off`. The text and
a zero are written; requests of 2^63 bytes and more are refused (`std::bad_alloc`), others are taken to succeed. The result
is the text as found between the offset and the zero. -/
def newWithText (sz off buf : Nat) (text : Bytes) : Res Bytes :=
  let need := (sz + 2 ^ 64 - buf + text.length + 1) % 2 ^ 64
  if need ≥ 2 ^ 63 then .err
  else if off + text.length ≥ need then .ub
  else .ok text

end Imt.Handle
