import Verif.Model.Fp
import Verif.Model.Parser
/-!
# Reading numbers with the arithmetic of `double` (parser.h:450-502, 589-749)

`Model.Parser` keeps the decimal number a text denotes; here is the floating point computation the parser does instead.
Operations are rounded one by one (no fused multiplication and addition).
-/
namespace Imt.Fp
open Imt
open Imt.Parser (isDigit isE parseUnsigned readSign)
open Imt.Conv (Dbl)

/-- `std::isinf`. -/
def isInf : Dbl → Bool
  | .inf _ => true
  | _ => false

/-- `(double)n` for an unsigned 64-bit number. -/
def ofNat (n : Nat) : Dbl := rnd (n : Rat)

/-- One round of the loop of `parseLargeUnsigned` (parser.h:641): `floor(res * pow(10.0, cnt) + double(part))`. -/
def chunk (lib : Lib) (res : Dbl) (cnt part : Nat) : Dbl := floor (add (mul res (lib.pow10 cnt)) (ofNat part))

/-- Loop of `parseLargeUnsigned` (parser.h:632-644). The counter of `parseUnsigned` is the number of characters it takes. -/
def readLarge (lib : Lib) (res : Dbl) (s : Bytes) : Res (Dbl × Bytes) :=
  match s with
  | [] => .ok (res, [])
  | c :: cs =>
    if isDigit c then
      let u := parseUnsigned 0 (c :: cs)
      let r := chunk lib res ((c :: cs).length - u.2.2.length) u.2.1
      if isInf r then .err
      else if u.2.2.length < (c :: cs).length then readLarge lib r u.2.2 else .fuel
    else .ok (res, c :: cs)
termination_by s.length

/-- Loop of `parseDecimalPart` (parser.h:662-676): `floor(res * 10 + digit)`, counting digits. The counter has 32 bits, not
modelled. -/
def fracLoop : Dbl → Nat → Bytes → Dbl × Nat × Bytes
  | res, pos, [] => (res, pos, [])
  | res, pos, c :: cs =>
    if isDigit c then fracLoop (floor (add (mul res (.fin 10)) (.fin ((c - 48 : Nat) : Rat)))) (pos + 1) cs
    else (res, pos, c :: cs)

/-- `parseDecimalPart` (parser.h:651-684). -/
def decimalPart (lib : Lib) (s : Bytes) : Dbl × Bytes :=
  let l := fracLoop (.fin 0) 0 s
  (div l.1 (lib.pow10 l.2.1), l.2.2)

/-- Optional fraction (parser.h:695-711). -/
def readFrac (lib : Lib) (d : Dbl) : Bytes → Res (Dbl × Bytes)
  | [] => .ok (d, [])
  | c :: cs =>
    if c = 0x2E then
      match cs with
      | [] => .err
      | x :: xs => if isDigit x then .ok (add d (decimalPart lib (x :: xs)).1, (decimalPart lib (x :: xs)).2) else .err
    else .ok (d, c :: cs)

/-- Optional exponent (parser.h:714-738). -/
def readExp (lib : Lib) (d : Dbl) : Bytes → Res (Dbl × Bytes)
  | [] => .ok (d, [])
  | c :: cs =>
    if isE c then
      let sg := readSign cs
      match sg.2 with
      | [] => .err
      | x :: xs =>
        if isDigit x then
          let u := parseUnsigned 0 (x :: xs)
          if u.1 then .ok (mul d (if sg.1 then lib.pow01 (u.2.1 : Int) else lib.pow10 u.2.1), u.2.2) else .err
        else .err
    else .ok (d, c :: cs)

/-- `parseDouble` (parser.h:687-749). -/
def readDouble (lib : Lib) (intpart : Nat) (sg : Bool) (s : Bytes) : Res (Dbl × Bytes) := do
  let l ← readLarge lib (ofNat intpart) s
  let f ← readFrac lib l.1 l.2
  let e ← readExp lib f.1 f.2
  pure (if sg then neg e.1 else e.1, e.2)

/-- `parseNumber` (parser.h:450-502) without precise numbers, followed by `getNumber` of the value made (basicValues.h:98): the
double a number text becomes. -/
def readNumber (lib : Lib) (s : Bytes) : Res (Dbl × Bytes) :=
  let sg := readSign s
  match sg.2 with
  | [] => .err
  | c :: cs =>
    if isDigit c = true ∨ c = 0x2E then
      let u := parseUnsigned 0 (c :: cs)
      if u.1 = false ∨ u.2.2.head? = some 0x2E ∨ (u.2.2.head?.map isE).getD false = true then
        readDouble lib u.2.1 sg.1 u.2.2
      else .ok (if sg.1 then neg (ofNat u.2.1) else ofNat u.2.1, u.2.2)
    else .err

end Imt.Fp
