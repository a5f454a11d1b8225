import Verif.Model.Base
/-!
# Native data to values and back (`conv.h`)

`Value::from<T>` and `Value::as<T>` (value.h:810, 820) for the types `conv.h` knows.
-/
namespace Imt.Native
open Imt

/-- Types with a conversion both ways (conv.h:6-140); `StringView<char>` and `std::string` are one here, `PValue` is the value
itself and left out. -/
inductive Ty where
  | uint | int | dbl | flt | bool | str
  | vec (t : Ty)
deriving Repr, DecidableEq

/-- Data of a type: integers as numbers, `double` and `float` as their bits, strings as bytes. -/
def Ty.Data : Ty → Type
  | .uint => Nat
  | .int => Int
  | .dbl => Nat
  | .flt => Nat
  | .bool => Bool
  | .str => Bytes
  | .vec t => List t.Data

/-- The classes the constructors choose (basicValues.h:93-127, basicValues.cpp:12-60, stringValue.h:16-46, arrayValue.h):
`StaticZeroNumber`, `UnsignedIntegerValue`, `IntegerValue`, `NumberValue` (bits), `BoolValue`, `StaticEmptyStringValue`,
`StringValue`, `ArrayValue`. -/
inductive NV where
  | zero
  | uint (n : Nat)
  | int (i : Int)
  | dbl (bits : Nat)
  | bool (b : Bool)
  | emptyStr
  | str (s : Bytes)
  | arr (l : List NV)
deriving Repr

/-- Conversions of the machine and of other classes, which play no part in a round trip: `double` to integers, integers to
`double`, text to numbers; `wid` and `nar` convert between `float` and `double`. -/
structure Env where
  dblToUInt : Nat → Nat
  dblToInt : Nat → Int
  uintToDbl : Nat → Nat
  intToDbl : Int → Nat
  strToUInt : Bytes → Nat
  strToInt : Bytes → Int
  strToDbl : Bytes → Nat
  wid : Nat → Nat
  nar : Nat → Nat

/-- `value == 0` for a `double`: both zeros. -/
def dblZero (b : Nat) : Bool := b % 2 ^ 63 == 0

/-- `value == 0` for a `float`. -/
def fltZero (b : Nat) : Bool := b % 2 ^ 31 == 0

/-- `Value(unsigned long)`: `allocUnsigned` (value.cpp:142-148, 173-174). -/
def ofUInt (n : Nat) : NV := if n = 0 then .zero else .uint n

/-- `Value(signed long)`: `allocSigned` (value.cpp:150-156, 170-171). -/
def ofInt (i : Int) : NV := if i = 0 then .zero else .int i

/-- `Value(double)` (value.cpp:278-283). -/
def ofDbl (b : Nat) : NV := if dblZero b then .zero else .dbl b

/-- `Value(float)` (value.cpp:285-290). -/
def ofFlt (e : Env) (b : Nat) : NV := if fltZero b then .zero else .dbl (e.wid b)

/-- `Value(const StringView<char> &)`: `StringValue::create` (value.cpp:47-53, stringValue.cpp:96-99). -/
def ofStr (s : Bytes) : NV := if s = [] then .emptyStr else .str s

/-- `Value::from<T>` (conv.h:16-138); a vector becomes `Value(const StringView<Value> &)` (conv.h:128-138, value.cpp:54-59). -/
def ofNative (e : Env) : (t : Ty) → t.Data → NV
  | .uint, n => ofUInt n
  | .int, i => ofInt i
  | .dbl, b => ofDbl b
  | .flt, b => ofFlt e b
  | .bool, b => .bool b
  | .str, s => ofStr s
  | .vec t, l => .arr (List.map (ofNative e t) l)

/-- `getUInt` (basicValues.h:25, 100, basicValues.cpp:24; text is parsed). -/
def getUInt (e : Env) : NV → Nat
  | .zero => 0
  | .uint n => n
  | .int i => (i % 2 ^ 64).toNat
  | .dbl b => e.dblToUInt b
  | .bool b => if b then 1 else 0
  | .str s => e.strToUInt s
  | _ => 0

/-- `getInt` (basicValues.h:24, 99, basicValues.cpp:23). -/
def getInt (e : Env) : NV → Int
  | .zero => 0
  | .uint n => ((n : Int) + 2 ^ 63) % 2 ^ 64 - 2 ^ 63
  | .int i => i
  | .dbl b => e.dblToInt b
  | .bool b => if b then 1 else 0
  | .str s => e.strToInt s
  | _ => 0

/-- `getNumber` (basicValues.h:23, 98, basicValues.cpp:22); `1.0` has the bits `0x3FF0...`. -/
def getNumber (e : Env) : NV → Nat
  | .zero => 0
  | .uint n => e.uintToDbl n
  | .int i => e.intToDbl i
  | .dbl b => b
  | .bool b => if b then 1023 * 2 ^ 52 else 0
  | .str s => e.strToDbl s
  | _ => 0

/-- `getBool` (basicValues.cpp:17; classes of the library's own: zero and the empty string say false, stringValue.h:22,
basicValues.h:113, arrayValue.h say true). -/
def getBool : NV → Bool
  | .zero => false
  | .bool b => b
  | .emptyStr => false
  | _ => true

/-- `getString` (basicValues.cpp:32, stringValue.cpp). -/
def getString : NV → Bytes
  | .str s => s
  | _ => []

/-- Items of a value as the iteration gives them; values that are not containers have none. -/
def items : NV → List NV
  | .arr l => l
  | _ => []

/-- `Value::as<T>` (conv.h:6-126). -/
def toNative (e : Env) : (t : Ty) → NV → t.Data
  | .uint, v => getUInt e v
  | .int, v => getInt e v
  | .dbl, v => getNumber e v
  | .flt, v => e.nar (getNumber e v)
  | .bool, v => getBool v
  | .str, v => getString v
  | .vec t, v => List.map (toNative e t) (items v)

end Imt.Native
