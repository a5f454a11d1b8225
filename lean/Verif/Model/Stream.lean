import Verif.Model.Parser
import Verif.Model.Serializer
/-!
# Several values in one stream (`Value::parse/fromStream/fromFile`, `Value::toStream/toFile`)

Each call of `Value::parse` makes a new `Parser` with its own `Reader` (parser.h:257-262). The reader fetches a character
before it knows whether the character belongs to the value (`Reader::next`, parser.h:91-101); the character stays in the
reader (`loaded`) and is lost with it. `Imt.Parser.parse` leaves that character in its rest; here it is dropped.
-/
namespace Imt.Stream
open Imt Parser

/-- Whether the reader holds one character more when the value is complete. `parseNumber` (parser.h:450-502) always ends
behind a `next` (the loop of `parseUnsigned`, parser.h:597-618, the test in 476, the end of `parseLargeUnsigned` and
`parseDecimalPart`, 632 and 662) or a `putBack` (parser.h:799). Objects, arrays, strings and keywords end with the
`commit` or `readFast` of their last character (parser.h:290, 321, 349, 365, 528-572, 575-584). -/
def ahead (s : Bytes) : Bool :=
  match skipWs s with
  | [] => false
  | c :: _ => isDigit c || c == 0x2B || c == 0x2D || c == 0x2E

/-- `Value::parse` (parser.h:257-262), hence `Value::fromStream` and `fromFile` (value.cpp:96-108): the value and what the
next reader of the stream will find. -/
def readOne (cfg : Cfg) (s : Bytes) : Res (JV × Bytes) := do
  let r ← parse cfg s
  pure (r.1, if ahead s then r.2.drop 1 else r.2)

/-- `n` calls of `Value::fromStream` (value.cpp:96-101) on one stream. -/
def readN (cfg : Cfg) : Nat → Bytes → Res (List JV × Bytes)
  | 0, s => .ok ([], s)
  | n + 1, s => do
    let x ← readOne cfg s
    let xs ← readN cfg n x.2
    pure (x.1 :: xs.1, xs.2)

/-- `n` calls of `Parser::parse` (parser.h:264-282) on one parser: the character stays loaded and is read again. -/
def parseN (cfg : Cfg) : Nat → Bytes → Res (List JV × Bytes)
  | 0, s => .ok ([], s)
  | n + 1, s => do
    let x ← parse cfg s
    let xs ← parseN cfg n x.2
    pure (x.1 :: xs.1, xs.2)

/-- A program that writes each value with `Value::toStream` (value.cpp:128-140) and a separator. -/
def writeAll (u8 : Bool) (f : Decimal → Bytes) (sep : Bytes) : List JV → Res Bytes
  | [] => .ok []
  | v :: l => do
    let t ← Ser.stringify u8 f v
    let ts ← writeAll u8 f sep l
    pure (t ++ (sep ++ ts))

end Imt.Stream
