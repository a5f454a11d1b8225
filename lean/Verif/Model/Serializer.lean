import Verif.Model.Value
import Verif.Model.Utf8
/-!
# JSON text serializer (`serializer.h`)
-/
namespace Imt.Ser
open Imt

/-- `writeUnsignedRec` (serializer.h:197-202). -/
def digitsRec (n : Nat) : Bytes := if h : n = 0 then [] else digitsRec (n / 10) ++ [48 + n % 10]
termination_by n
decreasing_by omega

/-- `writeUnsigned` (serializer.h:205-209, 211-223). -/
def writeUnsigned (n : Nat) : Bytes := if n ≠ 0 then digitsRec n else [48]

/-- `writeSigned` (serializer.h:233-253). `-value` of the most negative number overflows (undefined, see `hasMin`); the
magnitude is written here. -/
def writeSigned (i : Int) : Bytes := if i < 0 then 0x2D :: writeUnsigned i.natAbs else writeUnsigned i.natAbs

/-- Hexadecimal digits (serializer.h:380). -/
def hex (b : Nat) : Nat := (ascii "0123456789ABCDEF").getD b 0

/-- `\uXXXX` (serializer.h:378-384): only the low 16 bits. -/
def escU (u : Nat) : Bytes :=
  [0x5C, 0x75, hex ((u >>> 12) &&& 0xF), hex ((u >>> 8) &&& 0xF), hex ((u >>> 4) &&& 0xF), hex (u &&& 0xF)]

/-- `writeUnicode` (serializer.h:371-386); the argument is a 32-bit pattern, -1 ends the one-character stream. -/
def writeUnicode (utf8 : Bool) (u : Nat) : Bytes :=
  if utf8 = true ∧ u ≥ 0x80 ∧ u ≠ 0x2028 ∧ u ≠ 0x2029 then (if u = 0xFFFFFFFF then [] else Utf8.wideToUtf8 u)
  else escU u

/-- Characters with a one-letter escape (serializer.h:413-420), else `none`. -/
def shortEsc (c : Nat) : Option Nat :=
  if c = 0x5C ∨ c = 0x22 then some c
  else if c = 12 then some 0x66
  else if c = 8 then some 0x62
  else if c = 13 then some 0x72
  else if c = 10 then some 0x6E
  else if c = 9 then some 0x74
  else none

/-- `writeStringBody` (serializer.h:403-430) with the decoder (utf8.h:78-99); bytes arrive unsigned (streams.h:45-57). -/
def body (utf8 : Bool) : Utf8.Dec → Bytes → Bytes
  | _, [] => []
  | d, c :: cs =>
    match shortEsc c with
    | some e => 0x5C :: e :: body utf8 d cs
    | none =>
      if c < 32 ∨ c ≥ 128 then
        (((d.step c).2.map (writeUnicode utf8)).getD []) ++ body utf8 (d.step c).1 cs
      else c :: body utf8 d cs

/-- `writeString` (serializer.h:390-395). -/
def writeString (utf8 : Bool) (s : Bytes) : Bytes := 0x22 :: (body utf8 Utf8.Dec.init s ++ [0x22])

/-- `serializeNumber` (serializer.h:143-162) for the number classes of the model. Finite doubles are printed by
`fmtDbl` (serializer.h:257-364 uses binary floating point, a parameter here); infinities are strings
(serializer.h:272-276). -/
def writeNum (utf8 : Bool) (fmtDbl : Decimal → Bytes) : JNum → Bytes
  | .uint n => writeUnsigned n
  | .int i => writeSigned i
  | .dbl d => fmtDbl d
  | .inf neg => writeString utf8 (if neg then [0x2D, 0xE2, 0x88, 0x9E] else [0xE2, 0x88, 0x9E])
  | .prec t _ => t

mutual
/-- `Serializer::serialize` (serializer.h:90-103). Values with binary encodings are not modelled. -/
def ser (utf8 : Bool) (fmtDbl : Decimal → Bytes) : JV → Bytes
  | .undef => writeString utf8 (ascii "undefined")
  | .null => ascii "null"
  | .bool b => if b = false then ascii "false" else ascii "true"
  | .num n => writeNum utf8 fmtDbl n
  | .str s => writeString utf8 s
  | .arr l => 0x5B :: (serItems utf8 fmtDbl l ++ [0x5D])
  | .obj l => 0x7B :: (serMembers utf8 fmtDbl l ++ [0x7D])
/-- Items separated by commas (serializer.h:129-140). -/
def serItems (utf8 : Bool) (fmtDbl : Decimal → Bytes) : List JV → Bytes
  | [] => []
  | [v] => ser utf8 fmtDbl v
  | v :: w :: r => ser utf8 fmtDbl v ++ 0x2C :: serItems utf8 fmtDbl (w :: r)
/-- Members separated by commas (serializer.h:106-126). -/
def serMembers (utf8 : Bool) (fmtDbl : Decimal → Bytes) : List (Bytes × JV) → Bytes
  | [] => []
  | [(k, v)] => writeString utf8 k ++ 0x3A :: ser utf8 fmtDbl v
  | (k, v) :: m :: r => writeString utf8 k ++ 0x3A :: (ser utf8 fmtDbl v ++ 0x2C :: serMembers utf8 fmtDbl (m :: r))
end

mutual
/-- The tree contains the integer -2^63, whose negation in `writeSigned` (serializer.h:237, 248) is a signed overflow. -/
def hasMin : JV → Bool
  | .num (.int i) => i == -2 ^ 63
  | .arr l => hasMinL l
  | .obj l => hasMinM l
  | _ => false
/-- Lists. -/
def hasMinL : List JV → Bool
  | [] => false
  | v :: r => hasMin v || hasMinL r
/-- Members. -/
def hasMinM : List (Bytes × JV) → Bool
  | [] => false
  | (_, v) :: r => hasMin v || hasMinM r
end

/-- `Value::stringify` (value.cpp:110-126). -/
def stringify (utf8 : Bool) (fmtDbl : Decimal → Bytes) (v : JV) : Res Bytes :=
  if hasMin v then .ub else .ok (ser utf8 fmtDbl v)

end Imt.Ser
