import Verif.Model.Parser
import Verif.Model.Stream
/-!
# The text parser over its reader (`parser.h`)

`Imt.Parser` works on the list of characters; here the same functions are written over `Parser::Reader`, with its one
loaded character, as the code is. Numbers are kept exactly as in `Imt.Parser`.
-/
namespace Imt.Reader
open Imt Parser

/-- `Parser::Reader` (parser.h:69-140): the characters the source has not delivered, `c`, `loaded`, and how often the source
was asked behind its end (not in the code). -/
structure Rd where
  src : Bytes
  c : Int := 0
  loaded : Bool := false
  eofs : Nat := 0

/-- The number the source returns for a byte: as `char` (value.cpp:85-108) or unsigned (streams.h:45-57). -/
def deliver (cfg : Cfg) (b : Nat) : Int := if cfg.signedSrc ∧ b ≥ 128 then (b : Int) - 256 else b
/-- Conversion to `char`. -/
def toChar (c : Int) : Int := if c ≥ 128 then c - 256 else c
/-- `isspace`, `isdigit`, `toupper(c) == 'E'` for a number (false for negative numbers). -/
def isSpaceI (c : Int) : Bool := (9 ≤ c && c ≤ 13) || c == 32
def isDigitI (c : Int) : Bool := 48 ≤ c && c ≤ 57
def isEI (c : Int) : Bool := c == 0x65 || c == 0x45

/-- `source()`: -1 at the end. -/
def source (cfg : Cfg) (r : Rd) : Int × Rd :=
  match r.src with
  | [] => (-1, { r with eofs := r.eofs + 1 })
  | b :: s => (deliver cfg b, { r with src := s })
/-- `Reader::next` (parser.h:91-101). -/
def next (cfg : Cfg) (r : Rd) : Int × Rd :=
  if r.loaded then (r.c, r)
  else
    let x := source cfg r
    (x.1, { x.2 with c := x.1, loaded := true })
/-- `Reader::commit` (parser.h:109-112). -/
def commit (r : Rd) : Rd := { r with loaded := false }
/-- `Reader::nextCommit` (parser.h:114-121). -/
def nextCommit (cfg : Cfg) (r : Rd) : Int × Rd := if r.loaded then (r.c, { r with loaded := false }) else source cfg r
/-- `Reader::putBack` (parser.h:123-126). -/
def putBack (c : Int) (r : Rd) : Rd := { r with loaded := true, c := c }
/-- `Reader::readFast` (parser.h:134-136): whether a character is loaded or not. -/
def readFast (cfg : Cfg) (r : Rd) : Int × Rd := source cfg r

/-- `Reader::nextWs` (parser.h:103-107). -/
def nextWsL (cfg : Cfg) : Nat → Rd → Res (Int × Rd)
  | 0, _ => .fuel
  | n + 1, r =>
    let x := next cfg r
    if isSpaceI (toChar x.1) then nextWsL cfg n (commit x.2) else .ok (toChar x.1, x.2)
def nextWs (cfg : Cfg) (r : Rd) : Res (Int × Rd) := nextWsL cfg (r.src.length + 2) r

/-- `parseUnsigned` (parser.h:589-621): complete, value, number of digits. -/
def unsL (cfg : Cfg) : Nat → Nat → Nat → Rd → Res ((Bool × Nat × Nat) × Rd)
  | 0, _, _, _ => .fuel
  | n + 1, res, cnt, r =>
    let x := next cfg r
    if isDigitI (toChar x.1) then
      if res > (2 ^ 64 - 1) / 10 then .ok ((false, res, cnt), x.2)
      else
        let nextVal := (res * 10 + (toChar x.1 - 48).toNat) % 2 ^ 64
        if nextVal < res then .ok ((false, res, cnt), x.2)
        else unsL cfg n nextVal (cnt + 1) (commit x.2)
    else .ok ((true, res, cnt), x.2)
def uns (cfg : Cfg) (r : Rd) : Res ((Bool × Nat × Nat) × Rd) := unsL cfg (r.src.length + 2) 0 0 r

/-- `parseLargeUnsigned` (parser.h:624-647), exact arithmetic; `tooLong` is the `isinf` test. -/
def largeL (cfg : Cfg) : Nat → Nat → Rd → Res (Nat × Rd)
  | 0, _, _ => .fuel
  | n + 1, acc, r =>
    let x := next cfg r
    if isDigitI x.1 then do
      let p ← uns cfg x.2
      let acc' := acc * 10 ^ p.1.2.2 + p.1.2.1
      if cfg.tooLong acc' then .err else largeL cfg n acc' p.2
    else .ok (acc, x.2)
def large (cfg : Cfg) (acc : Nat) (r : Rd) : Res (Nat × Rd) := largeL cfg (r.src.length + 2) acc r

/-- `parseDecimalPart` (parser.h:651-684): the digits as a number and how many they are, exact. -/
def decimalL (cfg : Cfg) : Nat → Nat → Nat → Rd → Res ((Nat × Nat) × Rd)
  | 0, _, _, _ => .fuel
  | n + 1, acc, pos, r =>
    let x := next cfg r
    if isDigitI x.1 then
      let y := nextCommit cfg x.2
      decimalL cfg n (acc * 10 + (toChar y.1 - 48).toNat) (pos + 1) y.2
    else .ok ((acc, pos), x.2)
def decimal (cfg : Cfg) (r : Rd) : Res ((Nat × Nat) × Rd) := decimalL cfg (r.src.length + 2) 0 0 r

/-- `readSign` (parser.h:412-423). -/
def readSign (cfg : Cfg) (r : Rd) : Bool × Rd :=
  let x := next cfg r
  if toChar x.1 = 0x2D then (true, commit x.2) else if toChar x.1 = 0x2B then (false, commit x.2) else (false, x.2)

/-- The part of `parseDouble` behind a dot (parser.h:695-711). -/
def frac (cfg : Cfg) (r : Rd) : Res ((Nat × Nat) × Rd) :=
  let x := next cfg r
  if x.1 = 0x2E then
    let y := next cfg (commit x.2)
    if isDigitI y.1 then decimal cfg y.2 else .err
  else .ok ((0, 0), x.2)

/-- The exponent of `parseDouble` (parser.h:712-739). -/
def expo (cfg : Cfg) (r : Rd) : Res (Int × Rd) :=
  let x := next cfg r
  if isEI x.1 then
    let sg := readSign cfg (commit x.2)
    let y := next cfg sg.2
    if isDigitI y.1 then do
      let p ← uns cfg y.2
      if p.1.1 then .ok (if sg.1 then -(p.1.2.1 : Int) else (p.1.2.1 : Int), p.2) else .err
    else .err
  else .ok (0, x.2)

/-- `parseDouble` (parser.h:687-749), the result as a decimal. -/
def parseDouble (cfg : Cfg) (intpart : Nat) (neg : Bool) (r : Rd) : Res (JV × Rd) := do
  let l ← large cfg intpart r
  let f ← frac cfg l.2
  let e ← expo cfg f.2
  pure (.num (.dbl ⟨neg, l.1, f.1.1, f.1.2, e.1⟩), e.2)

/-- `while (isdigit(c)) { push_back(c); c = readFast(); }` (parser.h:766-769 and the like): text, `c`, reader. -/
def digL (cfg : Cfg) : Nat → Int → Rd → Res (Bytes × Int × Rd)
  | 0, _, _ => .fuel
  | n + 1, c, r =>
    if isDigitI c then do
      let x := readFast cfg r
      let t ← digL cfg n x.1 x.2
      pure (c.toNat :: t.1, t.2)
    else .ok ([], c, r)
def dig (cfg : Cfg) (c : Int) (r : Rd) : Res (Bytes × Int × Rd) := digL cfg (r.src.length + 2) c r

/-- Sign of a precise number (parser.h:757-760, 783-786). -/
def signP (cfg : Cfg) (c : Int) (r : Rd) : Bytes × Int × Rd :=
  if c = 0x2B ∨ c = 0x2D then
    let x := readFast cfg r
    ([c.toNat], x.1, x.2)
  else ([], c, r)

/-- Fraction of a precise number (parser.h:770-778). -/
def fracP (cfg : Cfg) (c : Int) (r : Rd) : Res (Bytes × Int × Rd) :=
  if c = 0x2E then do
    let x := readFast cfg r
    let d ← dig cfg x.1 x.2
    pure (c.toNat :: d.1, d.2)
  else .ok ([], c, r)

/-- `parsePreciseNumber` (parser.h:753-807): text, `hint_is_float`. -/
def precise (cfg : Cfg) (r : Rd) : Res ((Bytes × Bool) × Rd) := do
  let x := nextCommit cfg r
  let sg := signP cfg x.1 x.2
  if isDigitI sg.2.1 = false then .err
  else do
    let ds ← dig cfg sg.2.1 sg.2.2
    let fr ← fracP cfg ds.2.1 ds.2.2
    if fr.2.1 = 0x65 ∨ fr.2.1 = 0x45 then do
      let y := readFast cfg fr.2.2
      let es := signP cfg y.1 y.2
      if isDigitI es.2.1 = false then .err
      else do
        let ed ← dig cfg es.2.1 es.2.2
        pure ((sg.1 ++ ds.1 ++ fr.1 ++ [fr.2.1.toNat] ++ es.1 ++ ed.1, true), putBack ed.2.1 ed.2.2)
    else pure ((sg.1 ++ ds.1 ++ fr.1, fr.1 ≠ []), putBack fr.2.1 fr.2.2)

/-- `parseNumber` (parser.h:450-502). -/
def parseNumber (cfg : Cfg) (r : Rd) : Res (JV × Rd) :=
  if cfg.precise then do
    let p ← precise cfg r
    pure (.num (numberFromStringRaw p.1.1 p.1.2), p.2)
  else
    let sg := readSign cfg r
    let x := next cfg sg.2
    if isDigitI x.1 = true ∨ x.1 = 0x2E then do
      let u ← uns cfg x.2
      let y := next cfg u.2
      if u.1.1 = false ∨ y.1 = 0x2E ∨ isEI y.1 = true then parseDouble cfg u.1.2.1 sg.1 y.2
      else if sg.1 then
        if u.1.2.1 ≥ 2 ^ 63 then pure (.num (.dbl ⟨true, u.1.2.1, 0, 0, 0⟩), y.2)
        else pure (valueOfInt (-(u.1.2.1 : Int)), y.2)
      else pure (valueOfUInt u.1.2.1, y.2)
    else .err

/-- Digit of `parseUnicode` (parser.h:432-437). -/
def hexI (c : Int) : Nat :=
  if isDigitI c then (c - 48).toNat
  else if 0x41 ≤ c ∧ c ≤ 0x46 then (c - 0x41 + 10).toNat
  else if 0x61 ≤ c ∧ c ≤ 0x66 then (c - 0x61 + 10).toNat
  else 0

/-- Digits of `parseUnicode` (parser.h:426-440). -/
def unicodeL (cfg : Cfg) : Nat → Nat → Rd → Nat × Rd
  | 0, u, r => (u, r)
  | n + 1, u, r =>
    let x := readFast cfg r
    unicodeL cfg n (u * 16 + hexI x.1) x.2

/-- `readString` (parser.h:528-572), see `Imt.Parser.readStr`. -/
def strL (cfg : Cfg) : Nat → Utf8.Dec → Rd → Res (Bytes × Rd)
  | 0, _, _ => .fuel
  | n + 1, d, r =>
    let x := readFast cfg r
    if x.1 = -1 then .err
    else if x.1 = 0x22 then .ok ([], x.2)
    else if x.1 = 0x5C then
      let y := readFast cfg x.2
      if y.1 = 0x75 then do
        let u := unicodeL cfg 4 0 y.2
        let t ← strL cfg n d u.2
        pure (storeUnicode u.1 ++ t.1, t.2)
      else match simpleEsc y.1.toNat with
        | some b => do
          let t ← strL cfg n d y.2
          pure (b :: t.1, t.2)
        | none => .err
    else do
      let st := d.step (if x.1 < 0 then (2 ^ 32 + x.1).toNat else x.1.toNat)
      let t ← strL cfg n st.1 x.2
      pure ((st.2.map storeUnicode).getD [] ++ t.1, t.2)
def str (cfg : Cfg) (r : Rd) : Res (Bytes × Rd) := strL cfg (r.src.length + 2) Utf8.Dec.init r

/-- Loop of `checkString` (parser.h:580-583). -/
def kwL (cfg : Cfg) : Bytes → Rd → Res Rd
  | [], r => .ok r
  | k :: ks, r =>
    let x := readFast cfg r
    if x.1 = k then kwL cfg ks x.2 else .err
/-- `checkString` (parser.h:575-584). -/
def kw (cfg : Cfg) (k : Bytes) (r : Rd) : Res Rd :=
  match k with
  | [] => .ok r
  | k :: ks =>
    let x := next cfg r
    if x.1 = k then kwL cfg ks (commit x.2) else .err

mutual
/-- `Parser::parse` (parser.h:265-282), `parseObject` (285-290), `parseArray` (344-352). -/
def parseV (cfg : Cfg) : Nat → Rd → Res (JV × Rd)
  | 0, _ => .fuel
  | f + 1, r => do
    let x ← nextWs cfg r
    if x.1 = 0x7B then do
      let y ← nextWs cfg (commit x.2)
      if y.1 = 0x7D then pure (.obj [], commit y.2)
      else do
        let m ← parseMembers cfg f y.1 y.2
        let o := Obj.mkObject JV.defined false m.1
        if cfg.allowDup = false ∧ o.length ≠ m.1.length then .err else pure (.obj o, m.2)
    else if x.1 = 0x5B then do
      let y ← nextWs cfg (commit x.2)
      if y.1 = 0x5D then pure (.arr [], commit y.2)
      else do
        let m ← parseItems cfg f y.2
        pure (.arr m.1, m.2)
    else if x.1 = 0x22 then do
      let t ← str cfg (commit x.2)
      pure (stringValue t.1, t.2)
    else if x.1 = 0x74 then do
      let t ← kw cfg (ascii "true") x.2
      pure (.bool true, t)
    else if x.1 = 0x66 then do
      let t ← kw cfg (ascii "false") x.2
      pure (.bool false, t)
    else if x.1 = 0x6E then do
      let t ← kw cfg (ascii "null") x.2
      pure (.null, t)
    else if isDigitI x.1 = true ∨ x.1 = 0x2B ∨ x.1 = 0x2D ∨ x.1 = 0x2E then parseNumber cfg x.2
    else .err
/-- Loop of `parseObject` (parser.h:295-332); `c` is the character the key should begin with. -/
def parseMembers (cfg : Cfg) : Nat → Int → Rd → Res (List (Bytes × JV) × Rd)
  | 0, _, _ => .fuel
  | f + 1, c, r =>
    if c = 0x22 then do
      let k ← str cfg (commit r)
      let x ← nextWs cfg k.2
      if x.1 = 0x3A then do
        let v ← parseV cfg f (commit x.2)
        let y ← nextWs cfg v.2
        if y.1 = 0x7D then pure ([(k.1, v.1)], commit y.2)
        else if y.1 = 0x2C then do
          let z ← nextWs cfg (commit y.2)
          let m ← parseMembers cfg f z.1 z.2
          pure ((k.1, v.1) :: m.1, m.2)
        else .err
      else .err
    else .err
/-- Loop of `parseArray` (parser.h:353-386). -/
def parseItems (cfg : Cfg) : Nat → Rd → Res (List JV × Rd)
  | 0, _ => .fuel
  | f + 1, r => do
    let v ← parseV cfg f r
    let y ← nextWs cfg v.2
    if y.1 = 0x5D then pure ([v.1], commit y.2)
    else if y.1 = 0x2C then do
      let m ← parseItems cfg f (commit y.2)
      pure (v.1 :: m.1, m.2)
    else .err
end

/-- `Parser::parse` (parser.h:265-282) with a bound of the recursion that is never reached. -/
def parseR (cfg : Cfg) (r : Rd) : Res (JV × Rd) := parseV cfg (2 * r.src.length + 5) r

/-- `Value::parse` (parser.h:257-262) with a new reader: the value, what the source has not delivered, and how often it was
asked behind its end. -/
def parse (cfg : Cfg) (s : Bytes) : Res (JV × Bytes × Nat) := do
  let x ← parseR cfg { src := s }
  pure (x.1, x.2.src, x.2.eofs)

/-- `n` calls of `Parser::parse` on one parser, whose reader stays. -/
def parseN (cfg : Cfg) : Nat → Rd → Res (List JV × Rd)
  | 0, r => .ok ([], r)
  | n + 1, r => do
    let x ← parseR cfg r
    let xs ← parseN cfg n x.2
    pure (x.1 :: xs.1, xs.2)

end Imt.Reader
