import Verif.Model.Base
/-!
# Specification of UTF-8 (independent of the library)

Well-formed byte sequences, after table 3-7 of the Unicode standard.
-/
namespace Imt.Spec
open Imt

/-- `lo ≤ b ≤ hi`. -/
abbrev inR (b lo hi : Nat) : Prop := lo ≤ b ∧ b ≤ hi

/-- Well-formed UTF-8 byte sequences (Unicode table 3-7, row by row). -/
inductive WellFormedUtf8 : Bytes → Prop where
  | nil : WellFormedUtf8 []
  | one {a r} : inR a 0 0x7F → WellFormedUtf8 r → WellFormedUtf8 (a :: r)
  | two {a b r} : inR a 0xC2 0xDF → inR b 0x80 0xBF → WellFormedUtf8 r → WellFormedUtf8 (a :: b :: r)
  | three1 {b c r} : inR b 0xA0 0xBF → inR c 0x80 0xBF → WellFormedUtf8 r →
      WellFormedUtf8 (0xE0 :: b :: c :: r)
  | three2 {a b c r} : inR a 0xE1 0xEC → inR b 0x80 0xBF → inR c 0x80 0xBF → WellFormedUtf8 r →
      WellFormedUtf8 (a :: b :: c :: r)
  | three3 {b c r} : inR b 0x80 0x9F → inR c 0x80 0xBF → WellFormedUtf8 r →
      WellFormedUtf8 (0xED :: b :: c :: r)
  | three4 {a b c r} : inR a 0xEE 0xEF → inR b 0x80 0xBF → inR c 0x80 0xBF → WellFormedUtf8 r →
      WellFormedUtf8 (a :: b :: c :: r)
  | four1 {b c d r} : inR b 0x90 0xBF → inR c 0x80 0xBF → inR d 0x80 0xBF → WellFormedUtf8 r →
      WellFormedUtf8 (0xF0 :: b :: c :: d :: r)
  | four2 {a b c d r} : inR a 0xF1 0xF3 → inR b 0x80 0xBF → inR c 0x80 0xBF → inR d 0x80 0xBF →
      WellFormedUtf8 r → WellFormedUtf8 (a :: b :: c :: d :: r)
  | four3 {b c d r} : inR b 0x80 0x8F → inR c 0x80 0xBF → inR d 0x80 0xBF → WellFormedUtf8 r →
      WellFormedUtf8 (0xF4 :: b :: c :: d :: r)

/-- Unicode scalar values: code points that are not surrogates. -/
def IsScalar (w : Nat) : Prop := w < 0xD800 ∨ (0xE000 ≤ w ∧ w < 0x110000)

instance (w : Nat) : Decidable (IsScalar w) := inferInstanceAs (Decidable (_ ∨ _))

/-- The UTF-8 encoding of a scalar value (Unicode, table 3-6), by arithmetic. -/
def utf8 (w : Nat) : Bytes :=
  if w < 0x80 then [w]
  else if w < 0x800 then [0xC0 + w / 64, 0x80 + w % 64]
  else if w < 0x10000 then [0xE0 + w / 4096, 0x80 + w / 64 % 64, 0x80 + w % 64]
  else [0xF0 + w / 262144, 0x80 + w / 4096 % 64, 0x80 + w / 64 % 64, 0x80 + w % 64]

end Imt.Spec
