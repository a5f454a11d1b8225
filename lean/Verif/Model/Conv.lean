import Verif.Model.Parser
/-!
# Scalar getters (`basicValues.h`, `stringValue.cpp`, `value.h`)

`getInt`, `getUInt`, `getBool`, `getValueOrDefault` and `Value::preciseNumber`. On LP64 `Int` = `LongInt` and
`UInt` = `ULongInt` (ivalue.h:8-11), so `getIntLong`/`getUIntLong` are the same functions.
-/
namespace Imt.Conv
open Imt

/-- A `double`: a finite value (exact rational), an infinity or not-a-number. -/
inductive Dbl where
  | fin (q : Rat)
  | inf (neg : Bool)
  | nan
deriving DecidableEq

/-- Floating point is a parameter: `rnd` is the double the parser computes for a decimal (parser.h:687-749), `strtod` the
C library function (stringValue.cpp:123-128), `tooLong` as in the parser model. -/
structure FP where
  rnd : Decimal → Dbl
  strtod : Bytes → Dbl
  tooLong : Nat → Bool := fun _ => false

/-- Conversion of an unsigned to a signed 64-bit integer (modulo 2^64, as gcc and clang define it). -/
def wrapS (n : Nat) : Int := if n % 2 ^ 64 < 2 ^ 63 then ((n % 2 ^ 64 : Nat) : Int) else ((n % 2 ^ 64 : Nat) : Int) - 2 ^ 64

/-- `Int(v)` of a double (basicValues.h:99): the value without its fraction; undefined when that does not fit
([conv.fpint]). -/
def dblToInt : Dbl → Res Int
  | .fin q => if -2 ^ 63 ≤ Int.tdiv q.num q.den ∧ Int.tdiv q.num q.den < 2 ^ 63 then .ok (Int.tdiv q.num q.den) else .ub
  | .inf _ => .ub
  | .nan => .ub

/-- `UInt(v)` of a double (basicValues.h:100). -/
def dblToUInt : Dbl → Res Nat
  | .fin q => if 0 ≤ Int.tdiv q.num q.den ∧ Int.tdiv q.num q.den < 2 ^ 64 then .ok (Int.tdiv q.num q.den).toNat else .ub
  | .inf _ => .ub
  | .nan => .ub

/-- `getInt` of the number classes (basicValues.h:99, stringValue.cpp:190-194; the shared zero of basicValues.cpp:20-28 is
`uint 0`). -/
def numInt (fp : FP) : JNum → Res Int
  | .uint n => .ok (wrapS n)
  | .int i => .ok i
  | .dbl d => dblToInt (fp.rnd d)
  | .inf b => dblToInt (.inf b)
  | .prec t .dbl => dblToInt (fp.strtod t)
  | .prec _ (.sint i) => .ok i
  | .prec _ (.unat n) => .ok (wrapS n)

/-- `getUInt` of the number classes (basicValues.h:100, stringValue.cpp:196-200). -/
def numUInt (fp : FP) : JNum → Res Nat
  | .uint n => .ok n
  | .int i => .ok (i % 2 ^ 64).toNat
  | .dbl d => dblToUInt (fp.rnd d)
  | .inf b => dblToUInt (.inf b)
  | .prec t .dbl => dblToUInt (fp.strtod t)
  | .prec _ (.sint i) => .ok (i % 2 ^ 64).toNat
  | .prec _ (.unat n) => .ok n

/-- `Value::getInt` (value.h:275; basicValues.h:24 for booleans, stringValue.cpp:37-44 for strings, abstractValue.h:15
for the rest). A string is parsed as JSON text and the result is asked again; `ParseError` gives zero. The first argument
bounds that recursion (see `C100_total`). -/
def getIntF (fp : FP) : Nat → JV → Res Int
  | 0, _ => .fuel
  | f + 1, v =>
    match v with
    | .bool b => .ok (if b then 1 else 0)
    | .num n => numInt fp n
    | .str s =>
      match Parser.fromString fp.tooLong s with
      | .ok v' => getIntF fp f v'
      | .err => .ok 0
      | .ub => .ub
      | .abort => .abort
      | .fuel => .fuel
    | _ => .ok 0

/-- `Value::getUInt` (value.h:267, basicValues.h:25, stringValue.cpp:46-53, abstractValue.h:14). -/
def getUIntF (fp : FP) : Nat → JV → Res Nat
  | 0, _ => .fuel
  | f + 1, v =>
    match v with
    | .bool b => .ok (if b then 1 else 0)
    | .num n => numUInt fp n
    | .str s =>
      match Parser.fromString fp.tooLong s with
      | .ok v' => getUIntF fp f v'
      | .err => .ok 0
      | .ub => .ub
      | .abort => .abort
      | .fuel => .fuel
    | _ => .ok 0

/-- Recursion bound: the length of a string, see `C100_total`. -/
def depth : JV → Nat
  | .str s => s.length + 2
  | _ => 1

/-- `Value::getInt`. -/
def getInt (fp : FP) (v : JV) : Res Int := getIntF fp (depth v) v
/-- `Value::getUInt`. -/
def getUInt (fp : FP) (v : JV) : Res Nat := getUIntF fp (depth v) v

/-! ## Truth value

`getBool` depends on the class of the stored object, not on the denoted tree. -/

/-- Classes behind a `Value`, as far as `getBool` sees them: `UndefinedValue`, `NullValue`, `StaticBool`
(basicValues.cpp:14-18), `StaticZeroNumber` (20-28), `NumberValueT` with its number (basicValues.h:93-118),
`PreciseNumberValue` (stringValue.h:60-95; `cached` is the member of that name, `n` the number the text denotes),
`StaticEmptyStringValue`, `StringValue`, `StaticEmptyArrayValue`, `ArrayValue` or `SubArray` with their size,
`StaticEmptyObjectValue`, `ObjectValue` with its size. -/
inductive Cls where
  | undef
  | null
  | bool (b : Bool)
  | zero
  | number (d : Dbl)
  | precise (cached : Bool) (d : Dbl)
  | emptyStr
  | string (s : Bytes)
  | emptyArr
  | array (size : Nat)
  | emptyObj
  | object (size : Nat)
deriving DecidableEq

/-- `getBool` (abstractValue.h:19, basicValues.cpp:17, basicValues.h:113, stringValue.cpp:214-217, stringValue.h:22,
arrayValue.h:23, value.cpp:223, objectValue.h:22). `PreciseNumberValue::getBool` reads the member `n`, which is not
initialised before the first numeric getter (`PreciseNumberValue(const StrViewA &)`, stringValue.cpp:249-254). -/
def getBool : Cls → Res Bool
  | .undef => .ok false
  | .null => .ok false
  | .bool b => .ok b
  | .zero => .ok false
  | .number _ => .ok true
  | .precise true d => .ok (decide (d ≠ .fin 0))
  | .precise false _ => .ub
  | .emptyStr => .ok false
  | .string _ => .ok true
  | .emptyArr => .ok false
  | .array _ => .ok true
  | .emptyObj => .ok false
  | .object _ => .ok true

/-- `Value(bool)` (value.cpp:39). -/
def ofBool (b : Bool) : Cls := .bool b
/-- The integer constructors (value.cpp:142-180). -/
def ofInt (i : Int) : Cls := if i = 0 then .zero else .number (.fin i)
/-- `Value(double)` (value.cpp:278-283): `value == 0` holds for both zeros and not for NaN. -/
def ofDouble (d : Dbl) : Cls := if d = .fin 0 then .zero else .number d
/-- `Value(const StringView<char> &)` and its relatives (value.cpp:43-53, stringValue.cpp:96-99). -/
def ofString (s : Bytes) : Cls := if s = [] then .emptyStr else .string s
/-- `Value(const BinaryView &, BinaryEncoding)` (value.cpp:353, stringValue.cpp:107-111): no test for the empty view. -/
def ofBinary (s : Bytes) : Cls := .string s
/-- `Value(const std::initializer_list<Value> &)` without members (value.cpp:262-268): `n` items. -/
def ofList (n : Nat) : Cls := if n = 0 then .emptyArr else .array n
/-- `Value(const StringView<Value> &)` (value.cpp:54-59) and `BinaryParser::parseArray` (binjson.tcc:240-248): no test for
zero items. -/
def ofView (n : Nat) : Cls := .array n
/-- `Value(ValueType::object, …)` (value.cpp:390-412), `BinaryParser::parseObject` (binjson.tcc:250-259): `n` members. -/
def ofMembers (n : Nat) : Cls := .object n
/-- `Value::preciseNumber` (stringValue.cpp:282-311): the integer classes are created with their value, the floating point
one is not. -/
def ofPrecise (isInt : Bool) (d : Dbl) : Cls := .precise isInt d
/-- Any numeric getter fills the cache (stringValue.cpp:177-212). -/
def touch : Cls → Cls
  | .precise _ d => .precise true d
  | c => c

/-! ## getValueOrDefault -/

/-- Overload `getValueOrDefault(signed long)` (value.h:1122: `type() == number ? getInt() : defval`). -/
def orLong (fp : FP) (v : JV) (d : Int) : Res Int :=
  match v with
  | .num _ => getInt fp v
  | _ => .ok d

/-- `static_cast<signed int>`: 32 bits, modulo. -/
def wrap32 (i : Int) : Int := if i % 2 ^ 32 < 2 ^ 31 then i % 2 ^ 32 else i % 2 ^ 32 - 2 ^ 32

/-- Overload `getValueOrDefault(signed int)` (value.h:1120). -/
def orInt (fp : FP) (v : JV) (d : Int) : Res Int :=
  match v with
  | .num _ => do
    let i ← getInt fp v
    pure (wrap32 i)
  | _ => .ok d

/-- Overload `getValueOrDefault(unsigned long)` (value.h:1116). -/
def orULong (fp : FP) (v : JV) (d : Nat) : Res Nat :=
  match v with
  | .num _ => getUInt fp v
  | _ => .ok d

/-- Overload `getValueOrDefault(unsigned int)` (value.h:1114). -/
def orUInt (fp : FP) (v : JV) (d : Nat) : Res Nat :=
  match v with
  | .num _ => do
    let i ← getUInt fp v
    pure (i % 2 ^ 32)
  | _ => .ok d

/-- Overload `getValueOrDefault(bool)` (value.h:1126). -/
def orBool (v : JV) (d : Bool) : Bool :=
  match v with
  | .bool b => b
  | _ => d

/-- Overload `getValueOrDefault(const StrViewA &)` (value.h:1134). -/
def orStr (v : JV) (d : Bytes) : Bytes :=
  match v with
  | .str s => s
  | _ => d

/-! ## Value::preciseNumber -/

/-- How many characters `parsePreciseNumber` (parser.h:753-807) asks its source for, whether it succeeds or throws: all it
keeps and one more. -/
def preciseAsked (s : Bytes) : Nat :=
  let sg := Parser.takeSign s
  let ds := Parser.spanDigits sg.2
  if ds.1 = [] then sg.1.length + 1
  else
    let fr := Parser.takeFrac ds.2
    match fr.2 with
    | [] => sg.1.length + ds.1.length + fr.1.length + 1
    | c :: cs =>
      if c = 0x65 ∨ c = 0x45 then
        let es := Parser.takeSign cs
        let ed := Parser.spanDigits es.2
        sg.1.length + ds.1.length + fr.1.length + 1 + es.1.length + ed.1.length + 1
      else sg.1.length + ds.1.length + fr.1.length + 1

/-- `Value::preciseNumber` (value.cpp:727-747). The reader tests `pos > number.length`, so it also delivers the character
behind the view (`after`; `none` when that memory does not exist, then reading it is undefined) before the end mark. `pos`
counts the characters asked for, and `pos <= number.length` throws. `ParseError` becomes `InvalidNumericFormat` (both
`err`). -/
def preciseNumber (number : Bytes) (after : Option Nat) : Res JNum :=
  let inp := number ++ after.toList
  if after = none ∧ preciseAsked inp > number.length then .ub
  else
    match Parser.parsePrecise inp with
    | .ok (txt, fl, _) => if preciseAsked inp ≤ number.length then .err else .ok (Parser.numberFromStringRaw txt fl)
    | _ => .err

end Imt.Conv
