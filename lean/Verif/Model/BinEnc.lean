import Verif.Model.Base
import Verif.Model.Utf8
/-!
# URL encoding and UTF-8 binary encoding (`binary.cpp`)
-/
namespace Imt.BinEnc
open Imt

/-- Construction of a `StringValue` from a fill function (stringValue.h:48-57, stringValue.cpp:74-78,101-104).
`sz` is the requested size, `sz + 1` bytes are allocated (at least the length of a magic word, ignored here),
`charbuff[sz]` is zeroed before the fill and must still be zero after it, otherwise the process aborts; `written` is
what the fill function stored from the start of the buffer and `ret` the length it returned. -/
def mkString (sz : Nat) (written : Bytes) (ret : Nat) : Res Bytes :=
  if written.length > sz + 1 then .ub
  else if ret > sz ∨ written.getD sz 0 ≠ 0 then .abort
  else if written.length < ret then .ub
  else .ok (written.take ret)

/-- `isalnum` of the C locale on an unsigned byte. -/
def isAlnum (c : Nat) : Bool := (48 ≤ c && c ≤ 57) || (65 ≤ c && c ≤ 90) || (97 ≤ c && c ≤ 122)

/-- `hexchar` (binary.cpp:52). -/
def hexchar (i : Nat) : Nat := (ascii "0123456789ABCDEF").getD i 0

/-- `UrlEncoding::encodeBinaryValue`, one byte (binary.cpp:94-103). `strchr("-_.!~*'()", c)` is membership because
`c` is not zero. -/
def urlEncByte (c : Nat) : Bytes :=
  if c ≠ 0 ∧ (isAlnum c = true ∨ c ∈ ascii "-_.!~*'()") then [c]
  else [0x25, hexchar (c >>> 4), hexchar (c &&& 0xF)]

/-- `UrlEncoding::encodeBinaryValue` (binary.cpp:93-104). -/
def urlEncode (s : Bytes) : Bytes := s.flatMap urlEncByte

/-- `UnhexChar::operator[]` (binary.cpp:53-61). The argument is a (signed) `char` passed to `isdigit`: for bytes from
0x80 to 0xFE it is negative and not `EOF`, which is undefined. -/
def unhex (h : Nat) : Res Nat :=
  if 128 ≤ h ∧ h < 255 then .ub
  else if 48 ≤ h ∧ h ≤ 57 then .ok (h - 48)
  else if 65 ≤ h ∧ h ≤ 70 then .ok (h - 65 + 10)
  else if 97 ≤ h ∧ h ≤ 102 then .ok (h - 97 + 10)
  else .ok 0

/-- First loop of `UrlEncoding::decodeBinaryValue` (binary.cpp:68-70): number of target characters; after `%` two
characters are skipped (also past the end of the string). -/
def urlCount : Bytes → Nat
  | [] => 0
  | c :: cs => if c = 0x25 then 1 + urlCount (cs.drop 2) else 1 + urlCount cs
termination_by s => s.length
decreasing_by all_goals simp [List.length_drop]; try omega

/-- Second loop (binary.cpp:74-87): bytes written, and whether it ended early on a truncated `%`. -/
def urlFill : Bytes → Res (Bytes × Bool)
  | [] => .ok ([], false)
  | c :: cs =>
    if c = 0x25 then
      match cs with
      | a :: b :: r => do
        let x ← unhex a
        let y ← unhex b
        let t ← urlFill r
        pure ((((x <<< 4) ||| (y &&& 0xF)) % 256) :: t.1, t.2)
      | _ => .ok ([], true)
    else do
      let t ← urlFill cs
      pure ((if c = 0x2B then 0x20 else c) :: t.1, t.2)

/-- `UrlEncoding::decodeBinaryValue` (binary.cpp:66-92). -/
def urlDecode (s : Bytes) : Res Bytes := do
  let n := urlCount s
  let t ← urlFill s
  mkString n t.1 (if t.2 then n - 1 else n)

/-- `UTF8Encoding::encodeBinaryValue` (binary.cpp:131-143 with the 256 byte buffer flushed when full, and 144-153):
both overloads emit the concatenation of the converter's output. -/
def utf8Encode (s : Bytes) : Bytes := Utf8.encode s

/-- `UTF8Encoding::decodeBinaryValue` (binary.cpp:120-130). The same converter object `conv` counts the output and then
produces it, so the second pass starts in the state the first one left. The characters are cut to `unsigned char`. -/
def utf8Decode (s : Bytes) : Res Bytes :=
  let r1 := Utf8.decodeFrom Utf8.Dec.init s
  let needsz := r1.2.length
  let r2 := Utf8.decodeFrom r1.1 s
  mkString needsz (r2.2.map (· % 256)) needsz

end Imt.BinEnc
