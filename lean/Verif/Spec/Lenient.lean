import Verif.Spec.Json
import Verif.Spec.Map
/-!
# A superset of JSON, independent of the library

JSON with the liberties the parser takes: vertical tab and form feed as white space, `+` before numbers, leading zeros,
`.5` for `0.5` (or `5.` when numbers are kept as text), any characters inside strings, and `\u` before any four
characters. Brackets, commas, colons, quotes and keywords are as in JSON.
-/
namespace Imt.Spec
open Imt

/-- The modes: `ff` – the byte 0xFF may stand in strings; `precise` – numbers are kept as text; `dup` – keys may repeat. -/
structure Dialect where
  ff : Prop
  precise : Prop
  dup : Prop

/-- White space with vertical tab and form feed. -/
def LWs (w : Bytes) : Prop := ∀ c ∈ w, c = 0x20 ∨ (0x09 ≤ c ∧ c ≤ 0x0D)

/-- Number tokens. -/
structure LTok where
  sign : Bytes
  int : Bytes
  frac : Option Bytes
  exp : Option (Nat × Bytes × Bytes)

/-- Well-formed token. -/
structure LTok.WF (D : Dialect) (t : LTok) : Prop where
  sign : t.sign = [] ∨ t.sign = [0x2B] ∨ t.sign = [0x2D]
  int : ∀ c ∈ t.int, IsDig c
  frac : ∀ f ∈ t.frac, ∀ c ∈ f, IsDig c
  exp : ∀ e ∈ t.exp, (e.1 = 0x65 ∨ e.1 = 0x45) ∧ (e.2.1 = [] ∨ e.2.1 = [0x2B] ∨ e.2.1 = [0x2D]) ∧ Digits1 e.2.2
  prec : D.precise → t.int ≠ []
  plain : ¬ D.precise → (∀ f ∈ t.frac, f ≠ []) ∧ (t.int = [] → t.frac ≠ none)

/-- Text of the token. -/
def LTok.text (t : LTok) : Bytes := t.sign ++ (t.int ++ (fracText t.frac ++ expText t.exp))

/-- The number denotes the token: exactly, or by keeping its text. -/
def LTok.Denotes (t : LTok) : JNum → Prop
  | .uint k => t.frac = none ∧ t.exp = none ∧ k = decVal t.int ∧ (t.sign = [0x2D] → k = 0)
  | .int i => t.frac = none ∧ t.exp = none ∧ i = -(decVal t.int : Int) ∧ t.sign = [0x2D]
  | .dbl d => d = ⟨decide (t.sign = [0x2D]), decVal t.int, decVal (t.frac.getD []), (t.frac.getD []).length, expVal t.exp⟩
  | .prec txt _ => txt = t.text
  | .inf _ => False

/-- String bodies. -/
inductive LBody (D : Dialect) : Bytes → Prop where
  | nil : LBody D []
  | raw {c t} : c ≠ 0x22 → c ≠ 0x5C → (c = 0xFF → D.ff) → LBody D t → LBody D (c :: t)
  | esc {e c t} : Esc1 e c → LBody D t → LBody D (0x5C :: e :: t)
  | uni {a b c d t} : LBody D t → LBody D (0x5C :: 0x75 :: a :: b :: c :: d :: t)

mutual
/-- Values. -/
inductive LVal (D : Dialect) : Bytes → JV → Prop where
  | null : LVal D (ascii "null") .null
  | true : LVal D (ascii "true") (.bool true)
  | false : LVal D (ascii "false") (.bool false)
  | num {t : LTok} {n} : t.WF D → t.Denotes n → ((¬ D.precise) ∨ ∃ x c, n = .prec x c) → LVal D t.text (.num n)
  | str {t v} : LBody D t → ((∃ s, v = .str s) ∨ ∃ b, v = .num (.inf b)) → LVal D (0x22 :: (t ++ [0x22])) v
  | arr0 {w} : LWs w → LVal D (0x5B :: (w ++ [0x5D])) (.arr [])
  | arr {t l} : LElems D t l → LVal D (0x5B :: (t ++ [0x5D])) (.arr l)
  | obj0 {w} : LWs w → LVal D (0x7B :: (w ++ [0x7D])) (.obj [])
  | obj {t l o} : LMembs D t l → (D.dup ∨ (l.map (·.1)).Nodup) → StrictSorted o → (∀ k, lookup o k = lastVal l k) →
      LVal D (0x7B :: (t ++ [0x7D])) (.obj o)
/-- One or more items. -/
inductive LElems (D : Dialect) : Bytes → List JV → Prop where
  | one {w t v w'} : LWs w → LVal D t v → LWs w' → LElems D (w ++ (t ++ w')) [v]
  | cons {w t v w' t' l} : LWs w → LVal D t v → LWs w' → LElems D t' l →
      LElems D (w ++ (t ++ (w' ++ 0x2C :: t'))) (v :: l)
/-- One or more members. -/
inductive LMembs (D : Dialect) : Bytes → List (Bytes × JV) → Prop where
  | one {w k s w1 w2 t v w3} : LWs w → LBody D k → LWs w1 → LWs w2 → LVal D t v → LWs w3 →
      LMembs D (w ++ (0x22 :: (k ++ (0x22 :: (w1 ++ (0x3A :: (w2 ++ (t ++ w3)))))))) [(s, v)]
  | cons {w k s w1 w2 t v w3 t' l} : LWs w → LBody D k → LWs w1 → LWs w2 → LVal D t v → LWs w3 → LMembs D t' l →
      LMembs D (w ++ (0x22 :: (k ++ (0x22 :: (w1 ++ (0x3A :: (w2 ++ (t ++ (w3 ++ 0x2C :: t'))))))))) ((s, v) :: l)
end

end Imt.Spec
