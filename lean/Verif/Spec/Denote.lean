import Verif.Spec.Json
/-!
# Abstract JSON value denoted by a library value

Independent of the serializer. `f` prints finite floating point numbers (a parameter, see `Model/Serializer.lean`).
-/
namespace Imt.Spec
open Imt

/-- U+221E. -/
def infSign : Bytes := [0xE2, 0x88, 0x9E]

mutual
/-- A library value denotes an abstract JSON value. Undefined denotes the string "undefined", infinities the strings
"∞" and "-∞". -/
inductive Denotes (f : Decimal → Bytes) : JV → SJ → Prop where
  | undef : Denotes f .undef (.str (ascii "undefined"))
  | null : Denotes f .null .null
  | bool {b} : Denotes f (.bool b) (.bool b)
  | uint {n t} : Digits1 t.int → t.neg = false → t.frac = none → t.exp = none → decVal t.int = n → Denotes f (.num (.uint n)) (.num t)
  | int {i t} : Digits1 t.int → t.neg = decide (i < 0) → t.frac = none → t.exp = none → decVal t.int = i.natAbs →
      Denotes f (.num (.int i)) (.num t)
  | dbl {d t} : NumTok.WF t → t.text = f d → Denotes f (.num (.dbl d)) (.num t)
  | posInf : Denotes f (.num (.inf false)) (.str infSign)
  | negInf : Denotes f (.num (.inf true)) (.str (0x2D :: infSign))
  | prec {txt cls t} : NumTok.WF t → t.text = txt → Denotes f (.num (.prec txt cls)) (.num t)
  | str {s} : Denotes f (.str s) (.str s)
  | arr {l l'} : DenotesL f l l' → Denotes f (.arr l) (.arr l')
  | obj {l l'} : DenotesM f l l' → Denotes f (.obj l) (.obj l')
/-- Items, in order. -/
inductive DenotesL (f : Decimal → Bytes) : List JV → List SJ → Prop where
  | nil : DenotesL f [] []
  | cons {v v' l l'} : Denotes f v v' → DenotesL f l l' → DenotesL f (v :: l) (v' :: l')
/-- Members, in order. -/
inductive DenotesM (f : Decimal → Bytes) : List (Bytes × JV) → List (Bytes × SJ) → Prop where
  | nil : DenotesM f [] []
  | cons {k v v' l l'} : Denotes f v v' → DenotesM f l l' → DenotesM f ((k, v) :: l) ((k, v') :: l')
end

/-- Strings that have a JSON text: well-formed UTF-8; for escaped output (`utf8 = false`) no four-byte character. -/
def StrOk (utf8 : Bool) (s : Bytes) : Prop := WellFormedUtf8 s ∧ (utf8 = true ∨ ∀ b ∈ s, b < 0xF0)

mutual
/-- All strings and keys are `StrOk`; precise numbers and printed doubles are JSON number tokens. -/
def Printable (utf8 : Bool) (f : Decimal → Bytes) : JV → Prop
  | .str s => StrOk utf8 s
  | .num (.prec txt _) => ∃ t : NumTok, t.WF ∧ t.text = txt
  | .num (.dbl d) => ∃ t : NumTok, t.WF ∧ t.text = f d
  | .arr l => PrintableL utf8 f l
  | .obj l => PrintableM utf8 f l
  | _ => True
/-- Items. -/
def PrintableL (utf8 : Bool) (f : Decimal → Bytes) : List JV → Prop
  | [] => True
  | v :: l => Printable utf8 f v ∧ PrintableL utf8 f l
/-- Members. -/
def PrintableM (utf8 : Bool) (f : Decimal → Bytes) : List (Bytes × JV) → Prop
  | [] => True
  | (k, v) :: l => StrOk utf8 k ∧ Printable utf8 f v ∧ PrintableM utf8 f l
end

end Imt.Spec
