import Verif.Model.BinJson
/-!
# Equality, comparison and hash of values (`value.cpp`, `basicValues.h/.cpp`, `abstractValue.cpp`, `key.h`, `wrap.h`, `fnv.h`)

Numbers are IEEE doubles with their exact meaning and 64-bit integers. `StringView` comparison comes from the absent
`shared` submodule; it is taken as the byte order, only the sign of its result matters.
-/
namespace Imt.Eq
open Imt

/-- What a double denotes; finite ones as multiples of 2^-1074. -/
inductive D where
  | nan
  | fin (z : Int)
  | inf (neg : Bool)
deriving Repr, DecidableEq

/-- One in units of 2^-1074. -/
@[irreducible] def one : Int := 2 ^ 1074

/-- Magnitude of a finite double by its exponent and fraction fields. -/
def mag (e m : Nat) : Nat := if e = 0 then m else (2 ^ 52 + m) * 2 ^ (e - 1)

/-- Denotation of the 64-bit pattern (IEEE 754 binary64). -/
@[irreducible] def dval (bits : Nat) : D :=
  let e := bits / 2 ^ 52 % 2048
  let m := bits % 2 ^ 52
  let neg := decide (bits / 2 ^ 63 % 2 = 1)
  if e = 2047 then (if m = 0 then .inf neg else .nan)
  else .fin (if neg then -(mag e m : Int) else mag e m)

/-- Conversion of an unsigned integer to double: round to nearest, ties to even. -/
@[irreducible] def rnd (n : Nat) : Nat :=
  let s := Nat.log2 n - 52
  let q := n / 2 ^ s
  let r := n % 2 ^ s
  if s = 0 then n
  else if 2 * r > 2 ^ s ∨ (2 * r = 2 ^ s ∧ q % 2 = 1) then (q + 1) * 2 ^ s else q * 2 ^ s

/-- `double(v)` of an integer. -/
@[irreducible] def dint (i : Int) : D := .fin (if i < 0 then -((rnd i.natAbs : Int) * one) else (rnd i.natAbs : Int) * one)

/-- `operator<` of doubles. -/
def dlt : D → D → Bool
  | .fin x, .fin y => decide (x < y)
  | .inf true, .fin _ => true
  | .fin _, .inf false => true
  | .inf true, .inf false => true
  | _, _ => false

/-- `operator==` of doubles. -/
def deq : D → D → Bool
  | .fin x, .fin y => decide (x = y)
  | .inf a, .inf b => a == b
  | _, _ => false

/-- Classes of numbers: the shared zero (basicValues.cpp:20-28), `NumberValueT` of `UInt`, `Int` and `double`
(basicValues.h:93-124), `PreciseNumberValue` (stringValue.cpp:177-238) by the number it caches. On LP64 `UnsignedLongValue` and `LongValue` are never made
(value.cpp:142-156). -/
inductive Num where
  | zero
  | uint (n : Nat)
  | int (i : Int)
  | dbl (bits : Nat)
  | precU (n : Nat)
  | precI (i : Int)
  | precD (bits : Nat)
deriving Repr, DecidableEq

/-- `getNumber` (basicValues.h:98, basicValues.cpp:22, stringValue.cpp:190-194). -/
def Num.dbl' : Num → D
  | .zero => .fin 0
  | .uint n => dint n
  | .int i => dint i
  | .dbl b => dval b
  | .precU n => dint n
  | .precI i => dint i
  | .precD b => dval b

/-- `flags() & numberUnsignedInteger`. -/
def Num.isU : Num → Bool
  | .zero | .uint _ | .precU _ => true
  | _ => false

/-- `flags() & (numberInteger | numberUnsignedInteger)`. -/
def Num.isI : Num → Bool
  | .dbl _ | .precD _ => false
  | _ => true

/-- `getUInt` of numbers with the unsigned flag. -/
def Num.getU : Num → Nat
  | .uint n | .precU n => n
  | _ => 0

/-- Conversion to the signed type is modulo 2^64. -/
@[irreducible] def toSigned (n : Nat) : Int := if n % 2 ^ 64 < 2 ^ 63 then ((n % 2 ^ 64 : Nat) : Int) else ((n % 2 ^ 64 : Nat) : Int) - 2 ^ 64

/-- `getInt` of numbers with an integer flag. -/
def Num.getI : Num → Int
  | .uint n | .precU n => toSigned n
  | .int i | .precI i => i
  | _ => 0

/-- What a value is. -/
inductive Sh where
  | undef
  | null
  | bool (b : Bool)
  | num (n : Num)
  | str (s : Bytes) (binary : Bool)
  | arr
  | obj (diff : Bool)
deriving Repr, DecidableEq

/-- A value: address of its outermost object, the key bound to it, whether it carries a custom object (`ObjWrap`,
wrap.h), what it is, and its items. -/
inductive EV where
  | node (addr : Nat) (key : Bytes) (wrapped : Bool) (sh : Sh) (kids : List EV)
deriving Repr

def EV.addr : EV → Nat | .node a _ _ _ _ => a
def EV.key : EV → Bytes | .node _ k _ _ _ => k
def EV.wrapped : EV → Bool | .node _ _ w _ _ => w
def EV.sh : EV → Sh | .node _ _ _ s _ => s
def EV.kids : EV → List EV | .node _ _ _ _ l => l

/-- `NumberValueT::equal` (basicValues.h:104-112): the same class is compared exactly, otherwise by doubles
(basicValues.cpp:118-120, also for the shared zero and precise numbers). The class of a wrapped value is hidden from
`dynamic_cast` since `ObjWrap::unproxy` gives the wrapper (wrap.h:43). -/
def numEq (a b : Num) (wb : Bool) : Bool :=
  match a, b with
  | .uint m, .uint n => if wb then deq a.dbl' b.dbl' else m == n
  | .int m, .int n => if wb then deq a.dbl' b.dbl' else m == n
  | .dbl m, .dbl n => deq (dval m) (dval n)
  | _, _ => deq a.dbl' b.dbl'

mutual
/-- `a->equal(b)` (basicValues.cpp:109-150, abstractValue.h:31; proxies key.h:38, wrappers wrap.h:45 forward). -/
def equal : EV → EV → Bool
  | .node _ _ _ sh kids, b =>
    match sh, b.sh with
    | .null, .null => true
    | .bool x, .bool y => x == y
    | .num x, .num y => numEq x y b.wrapped
    | .str x _, .str y _ => x == y
    | .arr, .arr => b.kids.length == kids.length && equalItems kids b.kids
    | .obj _, .obj _ => b.kids.length == kids.length && equalMembers kids b.kids
    | _, _ => false
/-- The loop of `AbstractArrayValue::equal` (basicValues.cpp:126-137). -/
def equalItems : List EV → List EV → Bool
  | a :: l, b :: r => (a.addr == b.addr || equal a b) && equalItems l r
  | _, _ => true
/-- The loop of `AbstractObjectValue::equal` (basicValues.cpp:138-150). -/
def equalMembers : List EV → List EV → Bool
  | a :: l, b :: r => (a.addr == b.addr || (a.key == b.key && equal a b)) && equalMembers l r
  | _, _ => true
end

/-- `Value::operator==` (value.cpp:323-326). -/
def opEq (a b : EV) : Bool := b.addr == a.addr || equal b a

/-- `l<r?-1:l>r?1:0`. -/
def tri (lt gt : Bool) : Int := if lt then -1 else if gt then 1 else 0

/-- Numeric part of `AbstractValue::compare` (abstractValue.cpp:29-45). -/
def numCmp (a b : Num) : Int :=
  if a.isU && b.isU then tri (decide (a.getU < b.getU)) (decide (a.getU > b.getU))
  else if a.isI && b.isI then tri (decide (a.getI < b.getI)) (decide (a.getI > b.getI))
  else tri (dlt a.dbl' b.dbl') (dlt b.dbl' a.dbl')

/-- Sign of a comparison of strings. -/
def sgn : Ordering → Int
  | .lt => -1
  | .eq => 0
  | .gt => 1

/-- Order of the types (ivalue.h:14-32). -/
def typeNo : Sh → Nat
  | .null => 0
  | .bool _ => 1
  | .num _ => 2
  | .str _ _ => 3
  | .arr => 4
  | .obj _ => 5
  | .undef => 6

mutual
/-- `AbstractValue::compare` (abstractValue.cpp:18-76). -/
def compare : EV → EV → Int
  | .node _ _ _ sh kids, b =>
    match sh, b.sh with
    | .bool x, .bool y => if x == y then 0 else if x then 1 else -1
    | .num x, .num y => numCmp x y
    | .str x _, .str y _ => sgn (cmpBytes x y)
    | .arr, .arr => compareItems kids b.kids
    | .obj _, .obj _ => compareMembers kids b.kids
    | s, s' => tri (decide (typeNo s < typeNo s')) (decide (typeNo s > typeNo s'))
/-- Arrays (abstractValue.cpp:49-58). -/
def compareItems : List EV → List EV → Int
  | [], [] => 0
  | [], _ :: _ => -1
  | _ :: _, [] => 1
  | a :: l, b :: r => if compare a b ≠ 0 then compare a b else compareItems l r
/-- Objects (abstractValue.cpp:59-72). -/
def compareMembers : List EV → List EV → Int
  | [], [] => 0
  | [], _ :: _ => -1
  | _ :: _, [] => 1
  | a :: l, b :: r =>
    if sgn (cmpBytes a.key b.key) ≠ 0 then sgn (cmpBytes a.key b.key)
    else if compare a b ≠ 0 then compare a b else compareMembers l r
end

/-! ### Hash -/

/-- Numbers as the binary serializer sees them (binjson.tcc:183-209): the shared zero carries the signed flag. -/
def Num.shape : Num → BinJson.Shape
  | .zero => .int false 0
  | .uint n => .uint false n
  | .int i => .int false i
  | .dbl b => .dbl b
  | .precU n => .uint true n
  | .precI i => .int true i
  | .precD b => .dbl b

/-- Values as the binary serializer sees them. -/
def Sh.shape : Sh → BinJson.Shape
  | .undef => .undef
  | .null => .null
  | .bool b => .bool b
  | .num n => n.shape
  | .str s b => if b then .bin s else .str s
  | .arr => .arr
  | .obj d => .obj d

mutual
/-- A value with its key. -/
def toBV : EV → BinJson.BV
  | .node _ k _ sh kids => .node k sh.shape (toBVs kids)
/-- Items. -/
def toBVs : List EV → List BinJson.BV
  | [] => []
  | a :: l => toBV a :: toBVs l
end

/-- `FNV1a64` (fnv.h:13-25). -/
def fnvStep (h c : Nat) : Nat := (h ^^^ c % 256) * 1099511628211 % 2 ^ 64
/-- Hash of a byte string. -/
def fnv (b : Bytes) : Nat := b.foldl fnvStep 14695981039346656037

/-- `std::hash<json::Value>` (value.cpp:932-937): the key is stripped. -/
def hash (env : BinJson.Env) (v : EV) : Res Nat := do
  let r ← BinJson.ser {} env .init ((toBV v).withKey [])
  pure (fnv r.1)

end Imt.Eq
