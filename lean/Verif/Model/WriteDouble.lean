import Verif.Model.Fp
import Verif.Model.Serializer
/-!
# `Serializer::writeDouble` (serializer.h:257-364)
-/
namespace Imt.Fp
open Imt
open Imt.Conv (Dbl dblToUInt)

/-- Removing rightmost zeros (serializer.h:351): number and digits. -/
def strip (m digits : Nat) : Nat × Nat :=
  if m ≠ 0 ∧ m % 10 = 0 then strip (m / 10) (digits - 1) else (m, digits)
termination_by m
decreasing_by omega

/-- `writeUnsigned(value, digits)` (serializer.h:225-230). -/
def fixed : Nat → Nat → Bytes
  | v, d + 2 => fixed (v / 10) (d + 1) ++ [48 + v % 10]
  | v, _ => [48 + v % 10]

/-- Dot and decimals (serializer.h:347-354). -/
def fracOut (p m : Nat) : Bytes := if m = 0 then [] else 0x2E :: fixed (strip m p).1 (strip m p).2

/-- Exponent (serializer.h:356-362). -/
def expOut (e : Int) : Bytes := if e = 0 then [] else 0x65 :: ((if 0 < e then [0x2B] else []) ++ Ser.writeSigned e)

/-- Adjustment after rounding (serializer.h:327-339): integer part, decimals, exponent. -/
def carry (p intp m : Nat) (iexp : Int) : Nat × Nat × Int :=
  if m ≥ 10 ^ p then
    if intp + 1 ≥ 10 ∧ iexp ≠ 0 then (1, m - 10 ^ p, iexp + 1) else (intp + 1, m - 10 ^ p, iexp)
  else (intp, m, iexp)

/-- Scaling (serializer.h:301-310): exponent to print and number to print before it. The exponent is zero for a "reasonable
range". -/
def scale (lib : Lib) (a : Rat) : Int × Dbl :=
  if -3 < lib.lg a ∧ lib.lg a < 8 then (0, .fin a) else (lib.lg a, mul (.fin a) (lib.pow01 (lib.lg a)))

/-- Decimals as integer (serializer.h:314-317): `floor(frac * fractMultiply + 0.5)`. -/
def decimals (p : Nat) (frac : Rat) : Dbl := floor (add (mul (.fin frac) (.fin ((10 ^ p : Nat) : Rat))) (.fin (1 / 2)))

/-- `writeDouble` (serializer.h:257-364); `prec` is `maxPrecisionDigits` (value.cpp:317). `log10` of zero is minus infinity, of
another finite number finite (serializer.h:284-300). `modf` is exact. A number to print that is not finite or does not fit
64 bits is converted to `UInt` with undefined behaviour (serializer.h:319-322). -/
def writeDouble (lib : Lib) (utf8 : Bool) (prec : Nat) : Dbl → Res Bytes
  | .nan => .ok (Ser.writeString utf8 [0xE2, 0x88, 0x9E])
  | .inf neg => .ok (Ser.writeString utf8 (if neg then [0x2D, 0xE2, 0x88, 0x9E] else [0xE2, 0x88, 0x9E]))
  | .fin q =>
    if q = 0 then .ok [48]
    else
      let p := min prec 9
      let s := scale lib (absR q)
      match s.2 with
      | .fin x => do
        let intp ← dblToUInt (.fin (x.floor : Rat))
        let m ← dblToUInt (decimals p (x - (x.floor : Rat)))
        let r := carry p intp m s.1
        pure ((if q < 0 then [0x2D] else []) ++ (Ser.writeUnsigned r.1 ++ (fracOut p r.2.1 ++ expOut r.2.2)))
      | _ => .ub

/-- The number a `Decimal` stands for. A double is kept in a tree as the decimal number it is equal to. -/
def decQ (d : Decimal) : Rat :=
  (if d.neg then -1 else 1) * (((d.int : Rat) + (d.frac : Rat) / 10 ^ d.fracLen) * 10 ^ d.exp)

/-- Text printed for a double; empty if there is none. -/
def fmtD (lib : Lib) (utf8 : Bool) (prec : Nat) (d : Decimal) : Bytes :=
  match writeDouble lib utf8 prec (.fin (decQ d)) with
  | .ok t => t
  | _ => []

mutual
/-- All doubles of a tree are printed without undefined behaviour. -/
def dblsOk (lib : Lib) (utf8 : Bool) (prec : Nat) : JV → Bool
  | .num (.dbl d) => match writeDouble lib utf8 prec (.fin (decQ d)) with
    | .ok _ => true
    | _ => false
  | .arr l => dblsOkL lib utf8 prec l
  | .obj l => dblsOkM lib utf8 prec l
  | _ => true
/-- Items. -/
def dblsOkL (lib : Lib) (utf8 : Bool) (prec : Nat) : List JV → Bool
  | [] => true
  | v :: l => dblsOk lib utf8 prec v && dblsOkL lib utf8 prec l
/-- Members. -/
def dblsOkM (lib : Lib) (utf8 : Bool) (prec : Nat) : List (Bytes × JV) → Bool
  | [] => true
  | (_, v) :: l => dblsOk lib utf8 prec v && dblsOkM lib utf8 prec l
end

/-- `Value::stringify` (value.cpp:110-126) with doubles printed by `writeDouble` (serializer.h:143-162, 257-364). -/
def stringifyD (lib : Lib) (utf8 : Bool) (prec : Nat) (v : JV) : Res Bytes :=
  if dblsOk lib utf8 prec v then Ser.stringify utf8 (fmtD lib utf8 prec) v else .ub

end Imt.Fp
