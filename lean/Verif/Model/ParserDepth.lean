import Verif.Model.Parser
/-!
# The text parser on a finite stack

`Parser::parse` calls `parseObject` or `parseArray`, and these call `parse` for every member and item (parser.h:265-282,
311, 355). Nothing limits the nesting. Here the number of calls of `parse` that may be open at once is an argument; the
call that exceeds it ends the program (`abort`). How many calls fit depends on the platform and on what the stack holds
already, so the claims are for every number.
-/
namespace Imt.Parser
open Imt

mutual
/-- `Parser::parse` (parser.h:265-282) with room for `lim` calls. -/
def parseVD (cfg : Cfg) : Nat → Nat → Bytes → Res (JV × Bytes)
  | 0, _, _ => .abort
  | _ + 1, 0, _ => .fuel
  | lim + 1, f + 1, s =>
    match skipWs s with
    | [] => .err
    | c :: r =>
      if c = 0x7B then
        match skipWs r with
        | [] => .err
        | c' :: r' =>
          if c' = 0x7D then .ok (.obj [], r')
          else do
            let m ← parseMembersD cfg lim f (c' :: r')
            finishObj cfg m.1 m.2
      else if c = 0x5B then
        match skipWs r with
        | [] => .err
        | c' :: r' =>
          if c' = 0x5D then .ok (.arr [], r')
          else do
            let m ← parseItemsD cfg lim f (c' :: r')
            pure (.arr m.1, m.2)
      else if c = 0x22 then do
        let t ← readStr cfg Utf8.Dec.init r
        pure (stringValue t.1, t.2)
      else if c = 0x74 then do
        let t ← checkKw (ascii "true") (c :: r)
        pure (.bool true, t)
      else if c = 0x66 then do
        let t ← checkKw (ascii "false") (c :: r)
        pure (.bool false, t)
      else if c = 0x6E then do
        let t ← checkKw (ascii "null") (c :: r)
        pure (.null, t)
      else if isDigit c = true ∨ c = 0x2B ∨ c = 0x2D ∨ c = 0x2E then parseNumber cfg (c :: r)
      else .err
/-- Loop of `parseObject` (parser.h:295-332) with room for `lim` more calls. -/
def parseMembersD (cfg : Cfg) : Nat → Nat → Bytes → Res (List (Bytes × JV) × Bytes)
  | _, 0, _ => .fuel
  | _, _ + 1, [] => .err
  | lim, f + 1, q :: r =>
    if q = 0x22 then do
      let k ← readStr cfg Utf8.Dec.init r
      match skipWs k.2 with
      | [] => .err
      | c :: r2 =>
        if c = 0x3A then do
          let v ← parseVD cfg lim f r2
          match skipWs v.2 with
          | [] => .err
          | c2 :: r4 =>
            if c2 = 0x7D then pure ([(k.1, v.1)], r4)
            else if c2 = 0x2C then do
              let m ← parseMembersD cfg lim f (skipWs r4)
              pure ((k.1, v.1) :: m.1, m.2)
            else .err
        else .err
    else .err
/-- Loop of `parseArray` (parser.h:353-386) with room for `lim` more calls. -/
def parseItemsD (cfg : Cfg) : Nat → Nat → Bytes → Res (List JV × Bytes)
  | _, 0, _ => .fuel
  | lim, f + 1, s => do
    let v ← parseVD cfg lim f s
    match skipWs v.2 with
    | [] => .err
    | c2 :: r4 =>
      if c2 = 0x5D then pure ([v.1], r4)
      else if c2 = 0x2C then do
        let m ← parseItemsD cfg lim f r4
        pure (v.1 :: m.1, m.2)
      else .err
end

/-- `Value::parse` (parser.h:257-262) with room for `lim` calls of `Parser::parse`. -/
def parseD (cfg : Cfg) (lim : Nat) (s : Bytes) : Res (JV × Bytes) := parseVD cfg lim (2 * s.length + 1) s

end Imt.Parser
