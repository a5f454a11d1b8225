import Verif.Model.BinJson
/-!
# What must survive a trip through binary JSON

Stated over value trees only, without reference to the wire format.
-/
namespace Imt.BinJson
open Imt

/-- First byte is not `10xxxxxx` (every well-formed UTF-8 text satisfies this). -/
def StartOk (s : Bytes) : Prop := ∀ c ∈ s.head?, ¬ (128 ≤ c ∧ c < 192)

/-- Sizes and integers representable: below 2^60, with `maintain32BitComp` below 2^32. -/
def Fits (fl : Flags) (n : Nat) : Prop := n < 2 ^ 60 ∧ (fl.compat32 = true → n < 2 ^ 32)

/-- A text (string or key) covered by the round trip. -/
def TextOk (fl : Flags) (s : Bytes) : Prop := Bytes.Valid s ∧ StartOk s ∧ Fits fl s.length

/-- A node covered by the round trip; `cnt` is the number of its items. -/
def ShapeOk (fl : Flags) : Shape → Nat → Prop
  | .undef, cnt => cnt = 0
  | .null, cnt => cnt = 0
  | .bool _, cnt => cnt = 0
  | .uint long n, cnt => cnt = 0 ∧ n < 2 ^ 64 ∧ (fl.compat32 = true → long = false → n < 2 ^ 32)
  | .int long i, cnt => cnt = 0 ∧ -2 ^ 63 < i ∧ i < 2 ^ 63 ∧
      (fl.compat32 = true → long = false → i.natAbs < 2 ^ 32)
  | .dbl bits, cnt => cnt = 0 ∧ bits < 2 ^ 64
  | .str s, cnt => cnt = 0 ∧ TextOk fl s
  | .bin s, cnt => cnt = 0 ∧ Bytes.Valid s ∧ Fits fl s.length ∧ s ≠ []
  | .arr, cnt => Fits fl cnt
  | .obj diff, cnt => Fits fl cnt ∧ diff = false

mutual
/-- Every key, string, number and container of the tree is covered. -/
def Good (fl : Flags) : BV → Prop
  | .node key sh kids => TextOk fl key ∧ ShapeOk fl sh kids.length ∧ GoodL fl kids
def GoodL (fl : Flags) : List BV → Prop
  | [] => True
  | v :: l => Good fl v ∧ GoodL fl l
end

/-- Numbers keep their value but may change their representation: the `longInt` flag is dropped, a number stored as
signed that is not negative comes back as unsigned, and zero kept as a double (of either sign) as the integer. -/
def normShape : Shape → Shape
  | .uint _ n => .uint false n
  | .int _ i => if i < 0 then .int false i else .uint false i.toNat
  | .dbl bits => if bits = 0 ∨ bits = 2 ^ 63 then .uint false 0 else .dbl bits
  | sh => sh

mutual
/-- The value with its numbers in the representation the parser produces. -/
def norm : BV → BV
  | .node key sh kids => .node key (normShape sh) (normL kids)
def normL : List BV → List BV
  | [] => []
  | v :: l => norm v :: normL l
end

mutual
/-- Number of nodes. -/
def nodes : BV → Nat
  | .node _ _ kids => 1 + nodesL kids
def nodesL : List BV → Nat
  | [] => 0
  | v :: l => nodes v + nodesL l
end

/-- An environment in which no allocation fails and the parser was given an encoding for binary strings. -/
def Roomy (env : Env) : Prop :=
  (∀ n < 2 ^ 64, env.avail n = true) ∧ env.objStr < 2 ^ 32 ∧ env.magic < 2 ^ 32 ∧ env.objArr < 2 ^ 32 ∧
  env.binEnc = true

end Imt.BinJson
