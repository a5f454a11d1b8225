import Verif.Model.ToText
import Verif.Props.Binary
/-! # Text of a value: C157 -/
namespace Imt.Props
open Imt Imt.Binary Imt.ToText

/-- The text the documentation (value.h:428-449) gives for a value that is not a binary string. -/
def docText (utf8 : Bool) (fmtDbl : Decimal → Bytes) : TV → Bytes
  | .string n => n.getString
  | .other .undef => ascii "<undefined>"
  | .other .null => ascii "null"
  | .other (.bool b) => if b then ascii "true" else ascii "false"
  | .other (.num (.prec t _)) => t
  | .other v => Ser.ser utf8 fmtDbl v

/-- The value can be written (no smallest integer inside, see C01). -/
def TVWritable : TV → Prop
  | .string _ => True
  | .other v => Ser.hasMin v = false

/-- **C157.** `toString` gives strings as they are, `undefined`, `null` and booleans as words, precise numbers as the text they were
made from and everything else as `stringify` writes it. -/
theorem C157_text (utf8 : Bool) (fmtDbl : Decimal → Bytes) (v : TV) (hw : TVWritable v) (hb : ∀ n, v = .string n → n.isBin = false) :
    ToText.toString utf8 fmtDbl v = .ok (docText utf8 fmtDbl v) := by
  cases v with
  | string n => simp [ToText.toString, valueToString, hb n rfl, docText]
  | other v =>
    have hm : Ser.hasMin v = false := hw
    have hs : Ser.stringify utf8 fmtDbl v = .ok (Ser.ser utf8 fmtDbl v) := by simp [Ser.stringify, hm]
    cases v with
    | bool b => cases b <;> rfl
    | num n => cases n <;> first | rfl | simp only [ToText.toString, hs, docText]
    | _ => first | rfl | simp only [ToText.toString, hs, docText]

example : TVWritable (.string (.keyed (.str [0x41]))) ∧ (∀ n, TV.string (.keyed (.str [0x41])) = .string n → n.isBin = false) :=
  ⟨trivial, fun n h => by cases h; rfl⟩
example : TVWritable (.other (.arr [.null, .num (.int (-5))])) := by simp [TVWritable, Ser.hasMin, Ser.hasMinL]

/-- **C157, binary strings**: the text of the encoding. -/
theorem C157_binary (utf8 : Bool) (fmtDbl : Decimal → Bytes) (n : Node) (e : Coder) (b : Bytes) (hv : Bytes.Valid b) (h : n.unproxy = .bin e b) :
    ToText.toString utf8 fmtDbl (.string n) = .ok (textOf e b) := (C128_toString n e b hv h).1

example : Bytes.Valid [0x41, 0x42] ∧ Node.unproxy (.keyed (.bin .base64 [0x41, 0x42])) = .bin .base64 [0x41, 0x42] := ⟨by decide, rfl⟩

/-- C157: `getValueOrDefault(String)` gives the string of a string and the default for every value of another type. -/
theorem C157_default (utf8 : Bool) (fmtDbl : Decimal → Bytes) (d : Bytes) (v : TV) (hb : ∀ n, v = .string n → n.isBin = false) :
    orString utf8 fmtDbl d v = .ok (match v with | .string n => n.getString | .other _ => d) := by
  cases v with
  | string n => simp [orString, ToText.toString, valueToString, hb n rfl]
  | other v => rfl

example : orString true (fun _ => []) [0x64] (.other .null) = .ok [0x64] := rfl

/-- **C157 does not hold for trees with the smallest integer**: undefined, as it is for `stringify` (C01). -/
theorem C157_violation_min (utf8 : Bool) (fmtDbl : Decimal → Bytes) (v : JV) (h : Ser.hasMin v = true) :
    ToText.toString utf8 fmtDbl (.other v) = .ub := by
  have hs : Ser.stringify utf8 fmtDbl v = .ub := by simp [Ser.stringify, h]
  cases v with
  | undef => simp [Ser.hasMin] at h
  | num n =>
    cases n with
    | prec t c => simp [Ser.hasMin] at h
    | _ => simpa only [ToText.toString] using hs
  | _ => simpa only [ToText.toString] using hs

example : Ser.hasMin (.arr [.num (.int (-2 ^ 63))]) = true := by decide

end Imt.Props
