import Verif.Model.Conv
/-!
# IEEE 754 binary64 arithmetic

The operations of `double` the library uses (serializer.h:257-364, parser.h:624-749), rounding to nearest, ties to even.
Zeros of both signs are one value here: the library never distinguishes them. The functions `pow` and `log10` of the C
library are not specified exactly by any standard; they are parameters (`Lib`).
-/
namespace Imt.Fp
open Imt
open Imt.Conv (Dbl)

/-- Powers of two. -/
def pow2 (e : Int) : Rat := if 0 ≤ e then ((2 ^ e.toNat : Nat) : Rat) else 1 / ((2 ^ (-e).toNat : Nat) : Rat)

/-- Magnitude. -/
def absR (q : Rat) : Rat := if q < 0 then -q else q

/-- Exponent of the leading binary digit. -/
def expo (q : Rat) : Int :=
  let e := (Nat.log2 q.num.natAbs : Int) - (Nat.log2 q.den : Int)
  if pow2 e ≤ absR q then e else e - 1

/-- Nearest integer, ties to even. -/
def roundEven (q : Rat) : Int :=
  let f := q.floor
  let r := q - (f : Rat)
  if r < 1 / 2 then f else if 1 / 2 < r then f + 1 else if f % 2 = 0 then f else f + 1

/-- Distance of neighbouring doubles around `q`: 53 significant bits, not below 2^-1074. -/
def ulp (q : Rat) : Rat := pow2 (max (expo q) (-1022) - 52)

/-- The nearest double; infinity from 2^1024 - 2^970 up. -/
def rnd (q : Rat) : Dbl :=
  if q = 0 then .fin 0
  else
    let r := (roundEven (q / ulp q) : Rat) * ulp q
    if absR r < pow2 1024 then .fin r else .inf (decide (q < 0))

/-- Addition. -/
def add : Dbl → Dbl → Dbl
  | .nan, _ => .nan
  | _, .nan => .nan
  | .fin a, .fin b => rnd (a + b)
  | .fin _, .inf s => .inf s
  | .inf s, .fin _ => .inf s
  | .inf s, .inf t => if s = t then .inf s else .nan

/-- Multiplication. -/
def mul : Dbl → Dbl → Dbl
  | .nan, _ => .nan
  | _, .nan => .nan
  | .fin a, .fin b => rnd (a * b)
  | .fin a, .inf s => if a = 0 then .nan else .inf (s != decide (a < 0))
  | .inf s, .fin b => if b = 0 then .nan else .inf (s != decide (b < 0))
  | .inf s, .inf t => .inf (s != t)

/-- Division. -/
def div : Dbl → Dbl → Dbl
  | .nan, _ => .nan
  | _, .nan => .nan
  | .fin a, .fin b => if b = 0 then (if a = 0 then .nan else .inf (decide (a < 0))) else rnd (a / b)
  | .fin _, .inf _ => .fin 0
  | .inf s, .fin b => .inf (s != decide (b < 0))
  | .inf _, .inf _ => .nan

/-- `floor`. -/
def floor : Dbl → Dbl
  | .fin q => .fin (q.floor : Rat)
  | d => d

/-- Negation. -/
def neg : Dbl → Dbl
  | .fin q => .fin (-q)
  | .inf s => .inf !s
  | .nan => .nan

/-- Functions of the C library: `pow10 n` = `pow(10, n)`, `pow01 n` = `pow(0.1, n)`, `lg v` = `floor(log10(v))` for a positive
finite `v`, where `log10` is finite. -/
structure Lib where
  pow10 : Nat → Dbl
  pow01 : Int → Dbl
  lg : Rat → Int

end Imt.Fp
