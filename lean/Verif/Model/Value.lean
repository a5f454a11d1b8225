import Verif.Model.Base
/-!
# JSON values

The tree a `json::Value` denotes: what `type()`, `getString()`, `size()`, `itemAtIndex()`, `getMemberName()` show
(`ivalue.h`, `basicValues.h`, `arrayValue.h`, `objectValue.h`). Sharing of subtrees and reference counts are invisible
because values are immutable.
-/
namespace Imt
open Imt

/-- A decimal number as read by the floating point path of the parser (parser.h:687-749), before any rounding:
`(int + frac / 10^fracLen) * 10^exp`, negated when `neg`. Binary floating point is not modelled. -/
structure Decimal where
  neg : Bool
  int : Nat
  frac : Nat
  fracLen : Nat
  exp : Int
deriving Repr, DecidableEq

/-- Numeric class of a precise number (stringValue.cpp:282-311): `PreciseNumberValue<double>`, `<LongInt>` with its
cached value, or `<ULongInt>` with its cached value. -/
inductive PCls where
  | dbl
  | sint (i : Int)
  | unat (n : Nat)
deriving Repr, DecidableEq

/-- Numbers: `UnsignedIntegerValue` (`uint`, with 0 standing for the shared zero of `AbstractNumberValue::getZero`),
`IntegerValue` (`int`), `NumberValue` (`dbl` as exact decimal, `inf` for the infinities) and `PreciseNumberValue`
(`prec`), see basicValues.h, stringValue.h. -/
inductive JNum where
  | uint (n : Nat)
  | int (i : Int)
  | dbl (d : Decimal)
  | inf (neg : Bool)
  | prec (text : Bytes) (cls : PCls)
deriving Repr, DecidableEq

/-- JSON values. Members of an object are listed in storage order. -/
inductive JV where
  | undef
  | null
  | bool (b : Bool)
  | num (n : JNum)
  | str (s : Bytes)
  | arr (l : List JV)
  | obj (l : List (Bytes × JV))
deriving Repr

mutual
/-- Structural equality of trees (used to run examples; operator== is modelled separately). -/
def JV.decEq : (a b : JV) → Decidable (a = b)
  | .undef, b => by cases b <;> first | exact isTrue rfl | exact isFalse (by simp)
  | .null, b => by cases b <;> first | exact isTrue rfl | exact isFalse (by simp)
  | .bool x, b => match b with
    | .bool y => if h : x = y then isTrue (by rw [h]) else isFalse (by simpa using h)
    | .undef | .null | .num _ | .str _ | .arr _ | .obj _ => isFalse (by simp)
  | .num x, b => match b with
    | .num y => if h : x = y then isTrue (by rw [h]) else isFalse (by simpa using h)
    | .undef | .null | .bool _ | .str _ | .arr _ | .obj _ => isFalse (by simp)
  | .str x, b => match b with
    | .str y => if h : x = y then isTrue (by rw [h]) else isFalse (by simpa using h)
    | .undef | .null | .bool _ | .num _ | .arr _ | .obj _ => isFalse (by simp)
  | .arr x, b => match b with
    | .arr y => match JV.decEqL x y with
      | isTrue h => isTrue (by rw [h])
      | isFalse h => isFalse (by simpa using h)
    | .undef | .null | .bool _ | .num _ | .str _ | .obj _ => isFalse (by simp)
  | .obj x, b => match b with
    | .obj y => match JV.decEqM x y with
      | isTrue h => isTrue (by rw [h])
      | isFalse h => isFalse (by simpa using h)
    | .undef | .null | .bool _ | .num _ | .str _ | .arr _ => isFalse (by simp)
/-- Lists of trees. -/
def JV.decEqL : (a b : List JV) → Decidable (a = b)
  | [], [] => isTrue rfl
  | [], _ :: _ => isFalse (by simp)
  | _ :: _, [] => isFalse (by simp)
  | x :: xs, y :: ys => match JV.decEq x y, JV.decEqL xs ys with
    | isTrue h, isTrue h' => isTrue (by rw [h, h'])
    | isFalse h, _ => isFalse (by intro e; injection e with e1 _; exact h e1)
    | _, isFalse h => isFalse (by intro e; injection e with _ e2; exact h e2)
/-- Lists of members. -/
def JV.decEqM : (a b : List (Bytes × JV)) → Decidable (a = b)
  | [], [] => isTrue rfl
  | [], _ :: _ => isFalse (by simp)
  | _ :: _, [] => isFalse (by simp)
  | (k, x) :: xs, (k', y) :: ys =>
    if hk : k = k' then
      match JV.decEq x y, JV.decEqM xs ys with
      | isTrue h, isTrue h' => isTrue (by rw [hk, h, h'])
      | isFalse h, _ => isFalse (by intro e; injection e with e1 _; injection e1 with _ e2; exact h e2)
      | _, isFalse h => isFalse (by intro e; injection e with _ e2; exact h e2)
    else isFalse (by intro e; injection e with e1 _; injection e1 with e2 _; exact hk e2)
end

instance : DecidableEq JV := JV.decEq

/-- `Value::defined` (value.h). -/
def JV.defined : JV → Bool
  | .undef => false
  | _ => true

end Imt
