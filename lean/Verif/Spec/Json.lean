import Verif.Spec.Utf8
import Verif.Model.Value
/-!
# JSON grammar (RFC 8259), independent of the library

A grammatical text is related to the abstract value it denotes.
-/
namespace Imt.Spec
open Imt

/-- Decimal digit. -/
def IsDig (c : Nat) : Prop := 48 ≤ c ∧ c ≤ 57
instance (c : Nat) : Decidable (IsDig c) := inferInstanceAs (Decidable (_ ∧ _))

/-- Value of a digit string, most significant digit first. -/
def decVal (ds : Bytes) : Nat := ds.foldl (fun a c => a * 10 + (c - 48)) 0

/-- Number tokens: `[minus] int [frac] [exp]` (RFC 8259 section 6). `exp` is (letter, sign text, digits). -/
structure NumTok where
  neg : Bool
  int : Bytes
  frac : Option Bytes
  exp : Option (Nat × Bytes × Bytes)
deriving DecidableEq, Repr

/-- Digits, at least one. -/
def Digits1 (ds : Bytes) : Prop := ds ≠ [] ∧ ∀ c ∈ ds, IsDig c
instance (ds : Bytes) : Decidable (Digits1 ds) := inferInstanceAs (Decidable (_ ∧ _))

/-- Well-formed number token. -/
structure NumTok.WF (t : NumTok) : Prop where
  int : Digits1 t.int ∧ (t.int.head? = some 48 → t.int = [48])
  frac : ∀ f ∈ t.frac, Digits1 f
  exp : ∀ e ∈ t.exp, (e.1 = 0x65 ∨ e.1 = 0x45) ∧ (e.2.1 = [] ∨ e.2.1 = [0x2B] ∨ e.2.1 = [0x2D]) ∧ Digits1 e.2.2

/-- Text of the fraction. -/
def fracText : Option Bytes → Bytes
  | none => []
  | some f => 0x2E :: f

/-- Text of the exponent. -/
def expText : Option (Nat × Bytes × Bytes) → Bytes
  | none => []
  | some e => e.1 :: (e.2.1 ++ e.2.2)

/-- Text of the token. -/
def NumTok.text (t : NumTok) : Bytes :=
  (if t.neg then [0x2D] else []) ++ (t.int ++ (fracText t.frac ++ expText t.exp))

/-- The exponent as integer. -/
def expVal : Option (Nat × Bytes × Bytes) → Int
  | none => 0
  | some e => if e.2.1 = [0x2D] then -(decVal e.2.2 : Int) else (decVal e.2.2 : Int)

/-- The exact decimal number denoted. -/
def NumTok.value (t : NumTok) : Decimal :=
  ⟨t.neg, decVal t.int, decVal (t.frac.getD []), (t.frac.getD []).length, expVal t.exp⟩

/-- White space (RFC 8259 section 2). -/
def Ws (w : Bytes) : Prop := ∀ c ∈ w, c = 0x20 ∨ c = 0x09 ∨ c = 0x0A ∨ c = 0x0D

/-- Hexadecimal digit and its value. -/
inductive HexDig : Nat → Nat → Prop where
  | dec {c} : 48 ≤ c → c ≤ 57 → HexDig c (c - 48)
  | up {c} : 65 ≤ c → c ≤ 70 → HexDig c (c - 55)
  | lo {c} : 97 ≤ c → c ≤ 102 → HexDig c (c - 87)

/-- `\uXXXX` with its value. -/
inductive Esc4 : Bytes → Nat → Prop where
  | mk {a b c d : Nat} {a' b' c' d' : Nat} : HexDig a a' → HexDig b b' → HexDig c c' → HexDig d d' →
      Esc4 [0x5C, 0x75, a, b, c, d] (4096 * a' + 256 * b' + 16 * c' + d')

/-- Two-character escapes (RFC 8259 section 7). -/
inductive Esc1 : Nat → Nat → Prop where
  | quote : Esc1 0x22 0x22
  | back : Esc1 0x5C 0x5C
  | slash : Esc1 0x2F 0x2F
  | b : Esc1 0x62 8
  | f : Esc1 0x66 12
  | n : Esc1 0x6E 10
  | r : Esc1 0x72 13
  | t : Esc1 0x74 9

/-- String bodies (between the quotes), with the UTF-8 bytes of the string denoted. `pairs` says whether surrogate
pairs (two consecutive `\u` escapes) may be used; unpaired surrogates denote no scalar value and are left out. -/
inductive StrBody (pairs : Prop) : Bytes → Bytes → Prop where
  | nil : StrBody pairs [] []
  | raw {w t s} : IsScalar w → 0x20 ≤ w → w ≠ 0x22 → w ≠ 0x5C → StrBody pairs t s →
      StrBody pairs (utf8 w ++ t) (utf8 w ++ s)
  | esc {e c t s} : Esc1 e c → StrBody pairs t s → StrBody pairs (0x5C :: e :: t) (c :: s)
  | uni {x w t s} : Esc4 x w → IsScalar w → StrBody pairs t s → StrBody pairs (x ++ t) (utf8 w ++ s)
  | pair {x h y l t s} : pairs → Esc4 x h → 0xD800 ≤ h → h < 0xDC00 → Esc4 y l → 0xDC00 ≤ l → l < 0xE000 →
      StrBody pairs t s →
      StrBody pairs (x ++ (y ++ t)) (utf8 (0x10000 + (h - 0xD800) * 1024 + (l - 0xDC00)) ++ s)

/-- Abstract JSON values: members in the order of the text. -/
inductive SJ where
  | null
  | bool (b : Bool)
  | num (t : NumTok)
  | str (s : Bytes)
  | arr (l : List SJ)
  | obj (l : List (Bytes × SJ))

mutual
/-- Values (RFC 8259 section 3), without surrounding white space. -/
inductive JVal (pairs : Prop) : Bytes → SJ → Prop where
  | null : JVal pairs (ascii "null") .null
  | true : JVal pairs (ascii "true") (.bool true)
  | false : JVal pairs (ascii "false") (.bool false)
  | num {t : NumTok} : t.WF → JVal pairs t.text (.num t)
  | str {t s} : StrBody pairs t s → JVal pairs (0x22 :: (t ++ [0x22])) (.str s)
  | arr0 {w} : Ws w → JVal pairs (0x5B :: (w ++ [0x5D])) (.arr [])
  | arr {t l} : JElems pairs t l → JVal pairs (0x5B :: (t ++ [0x5D])) (.arr l)
  | obj0 {w} : Ws w → JVal pairs (0x7B :: (w ++ [0x7D])) (.obj [])
  | obj {t l} : JMembs pairs t l → JVal pairs (0x7B :: (t ++ [0x7D])) (.obj l)
/-- One or more items. -/
inductive JElems (pairs : Prop) : Bytes → List SJ → Prop where
  | one {w t v w'} : Ws w → JVal pairs t v → Ws w' → JElems pairs (w ++ (t ++ w')) [v]
  | cons {w t v w' t' l} : Ws w → JVal pairs t v → Ws w' → JElems pairs t' l →
      JElems pairs (w ++ (t ++ (w' ++ 0x2C :: t'))) (v :: l)
/-- One or more members. -/
inductive JMembs (pairs : Prop) : Bytes → List (Bytes × SJ) → Prop where
  | one {w k s w1 w2 t v w3} : Ws w → StrBody pairs k s → Ws w1 → Ws w2 → JVal pairs t v → Ws w3 →
      JMembs pairs (w ++ (0x22 :: (k ++ (0x22 :: (w1 ++ (0x3A :: (w2 ++ (t ++ w3)))))))) [(s, v)]
  | cons {w k s w1 w2 t v w3 t' l} : Ws w → StrBody pairs k s → Ws w1 → Ws w2 → JVal pairs t v → Ws w3 →
      JMembs pairs t' l →
      JMembs pairs (w ++ (0x22 :: (k ++ (0x22 :: (w1 ++ (0x3A :: (w2 ++ (t ++ (w3 ++ 0x2C :: t'))))))))) ((s, v) :: l)
end

/-- JSON texts: `ws value ws`. -/
inductive JText (pairs : Prop) : Bytes → SJ → Prop where
  | mk {w t v w'} : Ws w → JVal pairs t v → Ws w' → JText pairs (w ++ (t ++ w')) v

end Imt.Spec
