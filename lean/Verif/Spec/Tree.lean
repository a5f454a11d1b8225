import Verif.Model.WriteDouble
import Verif.Spec.Reads
import Mathlib.Data.Rat.Floor
import Mathlib.Algebra.Order.Field.Power
/-!
# Trees up to a relation of numbers
-/
namespace Imt.Spec
open Imt

mutual
/-- The same tree up to the numbers, which are related by `R`; undefined values come back as a string. -/
inductive Tree (R : JNum → JNum → Prop) : JV → JV → Prop where
  | undef : Tree R .undef (.str (ascii "undefined"))
  | null : Tree R .null .null
  | bool {b} : Tree R (.bool b) (.bool b)
  | num {n m} : R n m → Tree R (.num n) (.num m)
  | str {s} : Tree R (.str s) (.str s)
  | arr {l l'} : TreeL R l l' → Tree R (.arr l) (.arr l')
  | obj {l l'} : TreeM R l l' → Tree R (.obj l) (.obj l')
/-- Items. -/
inductive TreeL (R : JNum → JNum → Prop) : List JV → List JV → Prop where
  | nil : TreeL R [] []
  | cons {v v' l l'} : Tree R v v' → TreeL R l l' → TreeL R (v :: l) (v' :: l')
/-- Members. -/
inductive TreeM (R : JNum → JNum → Prop) : List (Bytes × JV) → List (Bytes × JV) → Prop where
  | nil : TreeM R [] []
  | cons {k v v' l l'} : Tree R v v' → TreeM R l l' → TreeM R ((k, v) :: l) ((k, v') :: l')
end

mutual
/-- Every double of the tree meets the condition. -/
def AllDbl (P : Decimal → Prop) : JV → Prop
  | .num (.dbl d) => P d
  | .arr l => AllDblL P l
  | .obj l => AllDblM P l
  | _ => True
/-- Items. -/
def AllDblL (P : Decimal → Prop) : List JV → Prop
  | [] => True
  | v :: l => AllDbl P v ∧ AllDblL P l
/-- Members. -/
def AllDblM (P : Decimal → Prop) : List (Bytes × JV) → Prop
  | [] => True
  | (_, v) :: l => AllDbl P v ∧ AllDblM P l
end

mutual
/-- The tree with something else in the place of its doubles. -/
def mapD (g : Decimal → JV) : JV → JV
  | .num (.dbl d) => g d
  | .arr l => .arr (mapDL g l)
  | .obj l => .obj (mapDM g l)
  | v => v
/-- Items. -/
def mapDL (g : Decimal → JV) : List JV → List JV
  | [] => []
  | v :: l => mapD g v :: mapDL g l
/-- Members. -/
def mapDM (g : Decimal → JV) : List (Bytes × JV) → List (Bytes × JV)
  | [] => []
  | (k, v) :: l => (k, mapD g v) :: mapDM g l
end

/-- The rest of a tree: without its doubles. -/
def blank (v : JV) : JV := mapD (fun _ => .null) v

/-- The number a numeric value stands for. -/
inductive NumOf : JNum → ℚ → Prop where
  | uint {n : Nat} : NumOf (.uint n) n
  | int {i : Int} : NumOf (.int i) i
  | dbl {d} : NumOf (.dbl d) (Fp.decQ d)
  | prec {t : NumTok} {c} : t.WF → NumOf (.prec t.text c) (Fp.decQ t.value)

/-- Error of a printed double: half a unit of the last decimal in the fixed format, eleven twentieths of it relative to the
number in the scientific format. -/
def err (lib : Fp.Lib) (prec : Nat) (q : ℚ) : ℚ :=
  if q = 0 then 0
  else if -3 < lib.lg |q| ∧ lib.lg |q| < 8 then (1 / 2 + 1 / 2 ^ 22) / 10 ^ min prec 9
  else |q| * (11 / 20) / 10 ^ min prec 9

/-- How numbers come back from a text: a double as a number of the same sign within the error, others as `Reads` says. -/
def Near (cfg : Parser.Cfg) (lib : Fp.Lib) (prec : Nat) : JNum → JNum → Prop
  | .dbl d, m => ∃ x, NumOf m x ∧ |x - Fp.decQ d| ≤ err lib prec (Fp.decQ d) ∧ (Fp.decQ d < 0 → x ≤ 0) ∧
      (0 ≤ Fp.decQ d → 0 ≤ x)
  | n, m => Reads cfg (.num n) (.num m)

/-- A double that is zero or normal. -/
def Normal (d : Decimal) : Prop := Fp.decQ d = 0 ∨ (1 / 2 ^ 1022 ≤ |Fp.decQ d| ∧ |Fp.decQ d| < 2 ^ 1024)

end Imt.Spec
