import Verif.Spec.Meaning
import Verif.Spec.Denote
/-!
# What a value becomes when its text is read back
-/
namespace Imt.Spec
open Imt Parser

mutual
/-- The second value is the first one read back: the same tree; integers as the same integer; precise numbers with the
same text in precise mode, with the number the text denotes otherwise. -/
inductive Reads (cfg : Cfg) : JV → JV → Prop where
  | undef : Reads cfg .undef (.str (ascii "undefined"))
  | null : Reads cfg .null .null
  | bool {b} : Reads cfg (.bool b) (.bool b)
  | uint {n} : cfg.precise = false → Reads cfg (.num (.uint n)) (.num (.uint n))
  | nat {n : Nat} : cfg.precise = false → Reads cfg (.num (.int n)) (.num (.uint n))
  | neg {i} : cfg.precise = false → i < 0 → Reads cfg (.num (.int i)) (.num (.int i))
  | uintP {n t} : cfg.precise = true → Digits1 t → decVal t = n → Reads cfg (.num (.uint n)) (.num (.prec t (.unat n)))
  | natP {n : Nat} {t} : cfg.precise = true → Digits1 t → decVal t = n → Reads cfg (.num (.int n)) (.num (.prec t (.unat n)))
  | negP {i t} : cfg.precise = true → i < 0 → Digits1 t → decVal t = i.natAbs →
      Reads cfg (.num (.int i)) (.num (.prec (0x2D :: t) (.sint i)))
  | inf {b} : Reads cfg (.num (.inf b)) (.num (.inf b))
  | prec {txt cls t} : cfg.precise = false → NumTok.WF t → t.text = txt →
      Reads cfg (.num (.prec txt cls)) (.num (interpNum t))
  | precP {txt cls cls'} : cfg.precise = true → Reads cfg (.num (.prec txt cls)) (.num (.prec txt cls'))
  | str {s} : Reads cfg (.str s) (.str s)
  | arr {l l'} : ReadsL cfg l l' → Reads cfg (.arr l) (.arr l')
  | obj {l l'} : ReadsM cfg l l' → Reads cfg (.obj l) (.obj l')
/-- Items. -/
inductive ReadsL (cfg : Cfg) : List JV → List JV → Prop where
  | nil : ReadsL cfg [] []
  | cons {v v' l l'} : Reads cfg v v' → ReadsL cfg l l' → ReadsL cfg (v :: l) (v' :: l')
/-- Members. -/
inductive ReadsM (cfg : Cfg) : List (Bytes × JV) → List (Bytes × JV) → Prop where
  | nil : ReadsM cfg [] []
  | cons {k v v' l l'} : Reads cfg v v' → ReadsM cfg l l' → ReadsM cfg ((k, v) :: l) ((k, v') :: l')
end

mutual
/-- Values in the scope of the round trip: integers of 64 bits (without the most negative one), no floating point
numbers except infinities, strings other than the texts of infinities, objects as the library builds them (keys
strictly ascending, C23). -/
def Tripable (cfg : Cfg) : JV → Prop
  | .num (.uint n) => n < 2 ^ 64
  | .num (.int i) => -2 ^ 63 < i ∧ i < 2 ^ 63
  | .num (.dbl _) => False
  | .num (.prec txt _) => cfg.precise = false → ∀ t : NumTok, t.WF → t.text = txt → NumFits cfg t
  | .str s => s ≠ infSign ∧ s ≠ 0x2D :: infSign
  | .arr l => TripableL cfg l
  | .obj l => StrictSorted l ∧ TripableM cfg l
  | _ => True
/-- Items. -/
def TripableL (cfg : Cfg) : List JV → Prop
  | [] => True
  | v :: l => Tripable cfg v ∧ TripableL cfg l
/-- Members. -/
def TripableM (cfg : Cfg) : List (Bytes × JV) → Prop
  | [] => True
  | (_, v) :: l => Tripable cfg v ∧ TripableM cfg l
end

mutual
/-- Integers as the library builds them: nonnegative ones are unsigned (`Value(Int)` of a positive number gives a signed
value, which compares equal); no precise numbers, nothing undefined. -/
def Plain : JV → Prop
  | .undef => False
  | .num (.int i) => i < 0
  | .num (.prec _ _) => False
  | .arr l => PlainL l
  | .obj l => PlainM l
  | _ => True
/-- Items. -/
def PlainL : List JV → Prop
  | [] => True
  | v :: l => Plain v ∧ PlainL l
/-- Members. -/
def PlainM : List (Bytes × JV) → Prop
  | [] => True
  | (_, v) :: l => Plain v ∧ PlainM l
end

end Imt.Spec
