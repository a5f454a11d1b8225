import Verif.Model.NamedEnum
/-!
# Texts of exceptions (`namedEnum.cpp`, `value.cpp`)

`what()` returns a pointer into a `std::string` kept in the exception. Strings above 15 bytes have a block of memory of their own
(libstdc++); both texts here are longer. The assignment from a temporary string takes its block; the block held before goes
to the temporary and is released with it. Memory is the list of blocks ever made, `none` for released ones.
`ParseError::what` is in `Model/ParserMem`.
-/
namespace Imt.ExcText
open Imt

/-- Blocks of memory. -/
abbrev Mem := List (Option Bytes)

/-- The member `whatMsg` or `msg`: the block with its text, `none` for the empty string. -/
abbrev Buf := Option Nat

/-- `buf = temporary`: the block of the temporary is taken, the old one released. The pointer of `c_str()`. -/
def assign (m : Mem) (b : Buf) (text : Bytes) : Nat × Mem × Buf :=
  match b with
  | none => (m.length, m ++ [some text], some m.length)
  | some i => (m.length, (m.set i none) ++ [some text], some m.length)

/-- The loop over `listEnums` (namedEnum.cpp:29-32). -/
def listLoop : Nat → List Bytes → Bytes
  | _, [] => []
  | sep, x :: l => [sep] ++ ascii "'" ++ x ++ ascii "'" ++ listLoop 44 l

/-- The text (namedEnum.cpp:26-33). -/
def enumText (errorEnum : Bytes) (listEnums : List Bytes) : Bytes :=
  ascii "Unknown enum name '" ++ errorEnum ++ ascii "'. The value is not on following list:" ++ listLoop 32 listEnums

/-- `UnknownEnumException::what` (namedEnum.cpp:22-38). -/
def enumWhat (errorEnum : Bytes) (listEnums : List Bytes) (m : Mem) (b : Buf) : Nat × Mem × Buf :=
  match b with
  | none => assign m b (enumText errorEnum listEnums)
  | some i => (i, m, b)

/-- `InvalidNumericFormat::what` (value.cpp:751-754). -/
def numberWhat (val : Bytes) (m : Mem) (b : Buf) : Nat × Mem × Buf :=
  assign m b (ascii "Invalid numeric format (precise number): " ++ val)

/-- Calls of `what` one after another: the pointers, and the memory left. -/
def calls (what : Mem → Buf → Nat × Mem × Buf) : Nat → Mem → Buf → List Nat × Mem × Buf
  | 0, m, b => ([], m, b)
  | n + 1, m, b =>
    let r := what m b
    let s := calls what n r.2.1 r.2.2
    (r.1 :: s.1, s.2)

/-- What a reader of the pointer sees: the bytes before the first zero; undefined for a released block. -/
def readC (m : Mem) (p : Nat) : Res Bytes :=
  match m[p]? with
  | some (some t) => .ok (t.takeWhile (· ≠ 0))
  | _ => .ub

end Imt.ExcText
