import Verif.Model.Base
/-!
# Specification of base64 (RFC 4648, section 4 and 5)

24-bit groups written as four 6-bit digits; a final group of one or two bytes is filled with zero bits on the right
and written with two or three digits, followed by padding in the padded variant.
-/
namespace Imt.Spec
open Imt

/-- RFC 4648 encoding with digit alphabet `dig` and padding string `pad k` for `k` missing digits. -/
def base64 (dig : Nat → Nat) (pad : Nat → Bytes) : Bytes → Bytes
  | [] => []
  | [a] =>
    let n := a * 65536
    [dig (n / 262144), dig (n / 4096 % 64)] ++ pad 2
  | [a, b] =>
    let n := a * 65536 + b * 256
    [dig (n / 262144), dig (n / 4096 % 64), dig (n / 64 % 64)] ++ pad 1
  | a :: b :: c :: r =>
    let n := a * 65536 + b * 256 + c
    [dig (n / 262144), dig (n / 4096 % 64), dig (n / 64 % 64), dig (n % 64)] ++ base64 dig pad r

/-- The alphabet of table 1 (RFC 4648): A-Z a-z 0-9 + /. -/
def digit64 (i : Nat) : Nat :=
  if i < 26 then 65 + i else if i < 52 then 97 + (i - 26) else if i < 62 then 48 + (i - 52)
  else if i = 62 then 43 else 47
/-- The alphabet of table 2 (RFC 4648): A-Z a-z 0-9 - _. -/
def digitUrl (i : Nat) : Nat :=
  if i < 26 then 65 + i else if i < 52 then 97 + (i - 26) else if i < 62 then 48 + (i - 52)
  else if i = 62 then 45 else 95

/-- Value of a character: its digit, or all ones for a character outside the alphabet. -/
def digitVal (dig : Nat → Nat) (c : Nat) : Nat := ((List.range 64).find? (fun i => dig i == c)).getD 255

/-- Bytes read from groups of four characters with the values `val`, without any check: each value is moved to its place,
cut to a byte and joined with its neighbours. A single character at the end gives nothing. -/
def readGroups (val : Nat → Nat) : Bytes → Bytes
  | a :: b :: c :: d :: r =>
    [(val a * 4 % 256) ||| (val b / 16), (val b * 16 % 256) ||| (val c / 4), (val c * 64 % 256) ||| val d] ++ readGroups val r
  | [a, b, c] => [(val a * 4 % 256) ||| (val b / 16), (val b * 16 % 256) ||| (val c / 4)]
  | [a, b] => [(val a * 4 % 256) ||| (val b / 16)]
  | _ => []

/-- Text without its padding: at most two `=` are removed from the end. -/
def unpad (s : Bytes) : Bytes :=
  if s.getLast? = some 0x3D then
    if s.dropLast.getLast? = some 0x3D then s.dropLast.dropLast else s.dropLast
  else s

end Imt.Spec
