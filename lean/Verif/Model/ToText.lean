import Verif.Model.Binary
/-!
# `Value::toString` (`value.cpp`)

Who owns the characters is the subject of C131 (`Model/StrMem.lean`).
-/
namespace Imt.ToText
open Imt

/-- A value: a string node (with or without encoding, behind proxies) or anything else. The strings of `JV` itself are not used at the top. -/
inductive TV where
  | string (n : Binary.Node)
  | other (v : JV)

/-- `Value::toString` (value.cpp:61-83). `utf8` is the default format of `stringify()` (value.cpp:110-117). `String(Value)` shows the
`getString` of the node behind the proxies (string.cpp:29-30), which for a precise number is its text (stringValue.cpp:224-227). -/
def toString (utf8 : Bool) (fmtDbl : Decimal → Bytes) : TV → Res Bytes
  | .string n => Binary.valueToString n
  | .other .undef => .ok (ascii "<undefined>")
  | .other (.num (.prec t _)) => .ok t
  | .other v => Ser.stringify utf8 fmtDbl v

/-- `getValueOrDefault(String)` (value.cpp:874-876). -/
def orString (utf8 : Bool) (fmtDbl : Decimal → Bytes) (d : Bytes) : TV → Res Bytes
  | .string n => toString utf8 fmtDbl (.string n)
  | .other _ => .ok d

end Imt.ToText
