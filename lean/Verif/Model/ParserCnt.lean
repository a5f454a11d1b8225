import Verif.Model.Parser
/-!
# Counters and chunks of the number parser (`parser.h`)

`Parser.parseUnsigned` leaves the counter out and `Parser.digitsVal` takes all digits at once; here they are as in the source.
-/
namespace Imt.Parser
open Imt

/-- `parseUnsigned` (parser.h:589-621) with its counter, an `int`: counting beyond 2^31-1 is undefined. -/
def parseUnsignedC : Nat → Nat → Bytes → Res (Bool × Nat × Nat × Bytes)
  | res, cnt, [] => .ok (true, res, cnt, [])
  | res, cnt, c :: cs =>
    if isDigit c then
      if res > (2 ^ 64 - 1) / 10 then .ok (false, res, cnt, c :: cs)
      else
        let nextVal := (res * 10 + (c - 48)) % 2 ^ 64
        if nextVal < res then .ok (false, res, cnt, c :: cs)
        else if cnt = 2 ^ 31 - 1 then .ub
        else parseUnsignedC nextVal (cnt + 1) cs
    else .ok (true, res, cnt, c :: cs)

/-- Loop of `parseLargeUnsigned` (parser.h:632-644) with exact numbers: value, number of rounds, rest. The first argument bounds the rounds. -/
def largeLoop : Nat → Nat → Nat → Bytes → Res (Nat × Nat × Bytes)
  | _, acc, k, [] => .ok (acc, k, [])
  | 0, _, _, _ :: _ => .fuel
  | f + 1, acc, k, c :: cs =>
    if isDigit c then do
      let u ← parseUnsignedC 0 0 (c :: cs)
      largeLoop f (acc * 10 ^ u.2.2.1 + u.2.1) (k + 1) u.2.2.2
    else .ok (acc, k, c :: cs)

/-- Counter of `parseDecimalPart` (parser.h:655, 675), an `unsigned int`: counting wraps. -/
def fracCount : Nat → Bytes → Nat
  | pos, [] => pos
  | pos, c :: cs => if isDigit c then fracCount ((pos + 1) % 2 ^ 32) cs else pos

end Imt.Parser
