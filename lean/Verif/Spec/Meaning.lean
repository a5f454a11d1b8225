import Verif.Spec.Json
import Verif.Spec.Map
import Verif.Model.Parser
/-!
# What a JSON text means as a library value

Independent of the parser (only its option record is used).
-/
namespace Imt.Spec
open Imt Parser

/-- The exponent fits 64 bits. -/
def ExpFits (e : Option (Nat × Bytes × Bytes)) : Prop := ∀ x ∈ e, decVal x.2.2 < 2 ^ 64

/-- Value of an integer literal (default mode). -/
def interpInt (neg : Bool) (v : Nat) : JNum :=
  if neg then (if v = 0 then .uint 0 else if v < 2 ^ 63 then .int (-(v : Int)) else .dbl ⟨true, v, 0, 0, 0⟩)
  else if v < 2 ^ 64 then .uint v else .dbl ⟨false, v, 0, 0, 0⟩

/-- The number class and value assigned to a literal (default mode): integers in range are integers, everything else is
the exact decimal. -/
def interpNum (t : NumTok) : JNum :=
  if t.frac = none ∧ t.exp = none then interpInt t.neg (decVal t.int) else .dbl t.value

/-- Limits of the floating point path: the integer part is not infinite, the exponent fits. -/
def NumFits (cfg : Cfg) (t : NumTok) : Prop := cfg.tooLong (decVal t.int) = false ∧ ExpFits t.exp

mutual
/-- All numbers are within the limits of the floating point path (no condition in precise mode). -/
def NumsFit (cfg : Cfg) : SJ → Prop
  | .num t => cfg.precise = false → NumFits cfg t
  | .arr l => NumsFitL cfg l
  | .obj l => NumsFitM cfg l
  | _ => True
/-- Items. -/
def NumsFitL (cfg : Cfg) : List SJ → Prop
  | [] => True
  | v :: l => NumsFit cfg v ∧ NumsFitL cfg l
/-- Members. -/
def NumsFitM (cfg : Cfg) : List (Bytes × SJ) → Prop
  | [] => True
  | (_, v) :: l => NumsFit cfg v ∧ NumsFitM cfg l
end

mutual
/-- No object at any depth has a key twice (no condition when duplicates are allowed). -/
def DupFree (cfg : Cfg) : SJ → Prop
  | .arr l => DupFreeL cfg l
  | .obj l => DupFreeM cfg l ∧ (cfg.allowDup = false → (l.map (·.1)).Nodup)
  | _ => True
/-- Items. -/
def DupFreeL (cfg : Cfg) : List SJ → Prop
  | [] => True
  | v :: l => DupFree cfg v ∧ DupFreeL cfg l
/-- Members. -/
def DupFreeM (cfg : Cfg) : List (Bytes × SJ) → Prop
  | [] => True
  | (_, v) :: l => DupFree cfg v ∧ DupFreeM cfg l
end

mutual
/-- No string value (keys do not matter) is the text of an infinity. -/
def NoInf : SJ → Prop
  | .str s => s ≠ [0xE2, 0x88, 0x9E] ∧ s ≠ [0x2D, 0xE2, 0x88, 0x9E]
  | .arr l => NoInfL l
  | .obj l => NoInfM l
  | _ => True
/-- Items. -/
def NoInfL : List SJ → Prop
  | [] => True
  | v :: l => NoInf v ∧ NoInfL l
/-- Members. -/
def NoInfM : List (Bytes × SJ) → Prop
  | [] => True
  | (_, v) :: l => NoInf v ∧ NoInfM l
end

mutual
/-- A library value represents an abstract one. Objects: canonical, every key has its last value. -/
inductive Means (cfg : Cfg) : SJ → JV → Prop where
  | null : Means cfg .null .null
  | bool {b} : Means cfg (.bool b) (.bool b)
  | num {t} : cfg.precise = false → Means cfg (.num t) (.num (interpNum t))
  | prec {t cls} : cfg.precise = true → Means cfg (.num t) (.num (.prec t.text cls))
  | str {s} : Means cfg (.str s) (.str s)
  | arr {l l'} : MeansL cfg l l' → Means cfg (.arr l) (.arr l')
  | obj {l l' o} : MeansM cfg l l' → StrictSorted o → (∀ k, lookup o k = lastVal l' k) → Means cfg (.obj l) (.obj o)
/-- Items. -/
inductive MeansL (cfg : Cfg) : List SJ → List JV → Prop where
  | nil : MeansL cfg [] []
  | cons {v v' l l'} : Means cfg v v' → MeansL cfg l l' → MeansL cfg (v :: l) (v' :: l')
/-- Members. -/
inductive MeansM (cfg : Cfg) : List (Bytes × SJ) → List (Bytes × JV) → Prop where
  | nil : MeansM cfg [] []
  | cons {k v v' l l'} : Means cfg v v' → MeansM cfg l l' → MeansM cfg ((k, v) :: l) ((k, v') :: l')
end

end Imt.Spec
