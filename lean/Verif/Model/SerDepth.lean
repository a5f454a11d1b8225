import Verif.Model.Serializer
/-!
# The text serializer on a finite stack

`Serializer::serialize` calls `serializeObject` and `serializeArray`, which call it for members and items
(serializer.h:90-103, 106-140). As in `ParserDepth` the number of calls of `serialize` that fit is an argument.
-/
namespace Imt.Ser
open Imt

mutual
/-- `Serializer::serialize` (serializer.h:90-103) with room for `lim` calls. -/
def serD (utf8 : Bool) (fmtDbl : Decimal → Bytes) : JV → Nat → Res Bytes
  | _, 0 => .abort
  | .undef, _ + 1 => .ok (writeString utf8 (ascii "undefined"))
  | .null, _ + 1 => .ok (ascii "null")
  | .bool b, _ + 1 => .ok (if b = false then ascii "false" else ascii "true")
  | .num n, _ + 1 => .ok (writeNum utf8 fmtDbl n)
  | .str s, _ + 1 => .ok (writeString utf8 s)
  | .arr l, lim + 1 => do
    let t ← serItemsD utf8 fmtDbl l lim
    pure (0x5B :: (t ++ [0x5D]))
  | .obj l, lim + 1 => do
    let t ← serMembersD utf8 fmtDbl l lim
    pure (0x7B :: (t ++ [0x7D]))
/-- Items separated by commas (serializer.h:129-140). -/
def serItemsD (utf8 : Bool) (fmtDbl : Decimal → Bytes) : List JV → Nat → Res Bytes
  | [], _ => .ok []
  | [v], lim => serD utf8 fmtDbl v lim
  | v :: w :: r, lim => do
    let t ← serD utf8 fmtDbl v lim
    let u ← serItemsD utf8 fmtDbl (w :: r) lim
    pure (t ++ 0x2C :: u)
/-- Members separated by commas (serializer.h:106-126). -/
def serMembersD (utf8 : Bool) (fmtDbl : Decimal → Bytes) : List (Bytes × JV) → Nat → Res Bytes
  | [], _ => .ok []
  | [(k, v)], lim => do
    let t ← serD utf8 fmtDbl v lim
    pure (writeString utf8 k ++ 0x3A :: t)
  | (k, v) :: m :: r, lim => do
    let t ← serD utf8 fmtDbl v lim
    let u ← serMembersD utf8 fmtDbl (m :: r) lim
    pure (writeString utf8 k ++ 0x3A :: (t ++ 0x2C :: u))
end

end Imt.Ser
