import Verif.Model.Value
import Verif.Model.Utf8
import Verif.Model.ObjCore
/-!
# JSON text parser (`parser.h`)

Input is the list of bytes the source has not delivered yet. `Reader::next/commit` (parser.h:91-121) peek and drop the
head of that list; every `readFast` (parser.h:134-136) is preceded by a commit, so it takes the head as well. The source
delivers `-1` at the end and, for the sources of `Value::fromString/fromStream/fromFile` (value.cpp:85-108), which
return `char`, bytes from 0x80 up arrive as negative numbers and 0xFF equals the end mark. The `ctype` functions on
negative arguments are modelled as on the usual C library (false); C72 states separately that they are called so.
-/
namespace Imt.Parser
open Imt

/-- Parser configuration: `signedSrc` – the source returns (signed) `char` (value.cpp:85-108) rather than unsigned bytes
(streams.h:45-57); `precise`, `allowDup` – the flags `allowPreciseNumbers`, `allowDupKeys` (parser.h:26-35);
`tooLong` – the `isinf` test of parser.h:643 on the digits read so far (floating point, a parameter). -/
structure Cfg where
  signedSrc : Bool := true
  precise : Bool := false
  allowDup : Bool := false
  tooLong : Nat → Bool := fun _ => false

/-- `isspace` in the C locale. -/
def isSpace (c : Nat) : Bool := (9 ≤ c && c ≤ 13) || c == 32
/-- `isdigit`. -/
def isDigit (c : Nat) : Bool := 48 ≤ c && c ≤ 57

/-- `Reader::nextWs` (parser.h:103-107): drops white space; the head of the result is the peeked character. -/
def skipWs (s : Bytes) : Bytes := s.dropWhile isSpace

/-- `toupper(c) == 'E'`. -/
def isE (c : Nat) : Bool := c == 0x65 || c == 0x45

/-- `parseUnsigned` (parser.h:589-621): (complete, value, rest). 64-bit unsigned arithmetic. The digit counter (an `int`)
is left out here, see `parseUnsignedC` (C161). -/
def parseUnsigned : Nat → Bytes → Bool × Nat × Bytes
  | res, [] => (true, res, [])
  | res, c :: cs =>
    if isDigit c then
      if res > (2 ^ 64 - 1) / 10 then (false, res, c :: cs)
      else
        let nextVal := (res * 10 + (c - 48)) % 2 ^ 64
        if nextVal < res then (false, res, c :: cs)
        else parseUnsigned nextVal cs
    else (true, res, c :: cs)

/-- Reads all digits: accumulated value, number of digits, rest. Models the arithmetic of `parseLargeUnsigned`
(parser.h:624-647, which takes the digits in chunks, see `C161_chunks`) and `parseDecimalPart` (parser.h:651-684) without rounding. -/
def digitsVal : Nat → Nat → Bytes → Nat × Nat × Bytes
  | acc, n, [] => (acc, n, [])
  | acc, n, c :: cs => if isDigit c then digitsVal (acc * 10 + (c - 48)) (n + 1) cs else (acc, n, c :: cs)

/-- `readSign` (parser.h:412-423). -/
def readSign : Bytes → Bool × Bytes
  | [] => (false, [])
  | c :: cs => if c = 0x2D then (true, cs) else if c = 0x2B then (false, cs) else (false, c :: cs)

/-- Optional fraction of `parseDouble` (parser.h:695-711): value, length, rest. -/
def parseFrac : Bytes → Res (Nat × Nat × Bytes)
  | [] => .ok (0, 0, [])
  | c :: cs =>
    if c = 0x2E then
      match cs with
      | [] => .err
      | d :: ds => if isDigit d then .ok (digitsVal 0 0 (d :: ds)) else .err
    else .ok (0, 0, c :: cs)

/-- Optional exponent of `parseDouble` (parser.h:712-739). -/
def parseExp : Bytes → Res (Int × Bytes)
  | [] => .ok (0, [])
  | c :: cs =>
    if isE c then
      let sg := readSign cs
      match sg.2 with
      | [] => .err
      | d :: ds =>
        if isDigit d then
          let u := parseUnsigned 0 (d :: ds)
          if u.1 then .ok (if sg.1 then -(u.2.1 : Int) else (u.2.1 : Int), u.2.2) else .err
        else .err
    else .ok (0, c :: cs)

/-- `parseDouble` (parser.h:687-749). The result is kept as an exact decimal: rounding is modelled in `ReadDouble`, and a
decimal that rounds to zero stands for the shared zero `Value(double)` makes of it (value.cpp:278-283). -/
def parseDouble (cfg : Cfg) (intpart : Nat) (neg : Bool) (s : Bytes) : Res (JV × Bytes) := do
  let l := digitsVal intpart 0 s
  if l.2.1 > 0 ∧ cfg.tooLong l.1 = true then .err
  else do
    let f ← parseFrac l.2.2
    let e ← parseExp f.2.2
    pure (.num (.dbl ⟨neg, l.1, f.1, f.2.1, e.1⟩), e.2)

/-- Digits of a precise number: (text, rest) (parser.h:766-769 and the like). -/
def spanDigits : Bytes → Bytes × Bytes
  | [] => ([], [])
  | c :: cs => if isDigit c then ((c :: (spanDigits cs).1), (spanDigits cs).2) else ([], c :: cs)

/-- Optional sign of a precise number: (text, rest) (parser.h:757-760, 783-786). -/
def takeSign : Bytes → Bytes × Bytes
  | [] => ([], [])
  | c :: cs => if c = 0x2B ∨ c = 0x2D then ([c], cs) else ([], c :: cs)

/-- Optional fraction of a precise number (parser.h:770-778): (text, rest). -/
def takeFrac : Bytes → Bytes × Bytes
  | [] => ([], [])
  | c :: cs => if c = 0x2E then (c :: (spanDigits cs).1, (spanDigits cs).2) else ([], c :: cs)

/-- `parsePreciseNumber` (parser.h:753-807): text, `hint_is_float`, rest. -/
def parsePrecise (s : Bytes) : Res (Bytes × Bool × Bytes) :=
  let sg := takeSign s
  let ds := spanDigits sg.2
  if ds.1 = [] then .err
  else
    let fr := takeFrac ds.2
    match fr.2 with
    | [] => .ok (sg.1 ++ ds.1 ++ fr.1, fr.1 ≠ [], [])
    | c :: cs =>
      if c = 0x65 ∨ c = 0x45 then
        let es := takeSign cs
        let ed := spanDigits es.2
        if ed.1 = [] then .err
        else .ok (sg.1 ++ ds.1 ++ fr.1 ++ [c] ++ es.1 ++ ed.1, true, ed.2)
      else .ok (sg.1 ++ ds.1 ++ fr.1, fr.1 ≠ [], c :: cs)

/-- Digit loop of `numberFromStringRaw` (stringValue.cpp:291-301): `none` = falls back to double. -/
def rawAcc : Nat → Bytes → Option Nat
  | acc, [] => some acc
  | acc, c :: cs =>
    if isDigit c then
      let newval := (acc * 10 + (c - 48)) % 2 ^ 64
      if newval < acc then none else rawAcc newval cs
    else none

/-- `ParserHelper::numberFromStringRaw` (stringValue.cpp:282-311). The text is not empty when called. -/
def numberFromStringRaw (str : Bytes) (forceDouble : Bool) : JNum :=
  if forceDouble then .prec str .dbl
  else
    let neg := str.head? == some 0x2D
    let body := if str.head? == some 0x2D || str.head? == some 0x2B then str.drop 1 else str
    match rawAcc 0 body with
    | none => .prec str .dbl
    | some acc =>
      if neg then
        if acc > (acc * 2) % 2 ^ 64 then .prec str .dbl else .prec str (.sint (-(acc : Int)))
      else .prec str (.unat acc)

/-- `Value(UInt)` (value.cpp:142-148, 173). -/
def valueOfUInt (n : Nat) : JV := .num (.uint n)
/-- `Value(Int)` (value.cpp:150-156, 170): zero is the shared zero. -/
def valueOfInt (i : Int) : JV := if i = 0 then .num (.uint 0) else .num (.int i)

/-- `parseNumber` (parser.h:450-502). -/
def parseNumber (cfg : Cfg) (s : Bytes) : Res (JV × Bytes) :=
  if cfg.precise then do
    let p ← parsePrecise s
    pure (.num (numberFromStringRaw p.1 p.2.1), p.2.2)
  else
    let sg := readSign s
    match sg.2 with
    | [] => .err
    | c :: cs =>
      if isDigit c = true ∨ c = 0x2E then
        let u := parseUnsigned 0 (c :: cs)
        if u.1 = false ∨ u.2.2.head? = some 0x2E ∨ (u.2.2.head?.map isE).getD false = true then
          parseDouble cfg u.2.1 sg.1 u.2.2
        else if sg.1 then
          if u.2.1 ≥ 2 ^ 63 then .ok (.num (.dbl ⟨true, u.2.1, 0, 0, 0⟩), u.2.2)
          else .ok (valueOfInt (-(u.2.1 : Int)), u.2.2)
        else .ok (valueOfUInt u.2.1, u.2.2)
      else .err

/-- Digit of `\uXXXX` (parser.h:432-437). Anything that is no hexadecimal digit counts as zero: the `ParseError` in
line 437 is constructed but not thrown. -/
def hexDigit (c : Nat) : Nat :=
  if isDigit c then c - 48
  else if 0x41 ≤ c ∧ c ≤ 0x46 then c - 0x41 + 10
  else if 0x61 ≤ c ∧ c ≤ 0x66 then c - 0x61 + 10
  else 0

/-- `storeUnicode` (parser.h:444-447): the one-character stream ends at once for the pattern of -1. -/
def storeUnicode (w : Nat) : Bytes := if w = 0xFFFFFFFF then [] else Utf8.wideToUtf8 w

/-- The `int` a source delivers for a byte, as 32-bit pattern. -/
def Cfg.ext (cfg : Cfg) (c : Nat) : Nat := if cfg.signedSrc ∧ c ≥ 128 then 2 ^ 32 - 256 + c else c

/-- One-character escapes (parser.h:544-553). -/
def simpleEsc (e : Nat) : Option Nat :=
  if e = 0x22 ∨ e = 0x5C ∨ e = 0x2F then some e
  else if e = 0x62 then some 8
  else if e = 0x66 then some 12
  else if e = 0x6E then some 10
  else if e = 0x72 then some 13
  else if e = 0x74 then some 9
  else none

/-- `readString` (parser.h:528-572) together with `Utf8ToWide` (utf8.h:78-99) and `parseUnicode` (parser.h:426-440):
text after the opening quote, decoder state; returns the bytes appended to `tmpstr` and the rest. Escapes are appended
at once, ordinary characters go through the decoder. Fewer than four characters after `\u` always end in the
end-of-file exception, because the missing digits are read as -1 and so is the next character. -/
def readStr (cfg : Cfg) : Utf8.Dec → Bytes → Res (Bytes × Bytes)
  | _, [] => .err
  | d, c :: cs =>
    if c = 0xFF ∧ cfg.signedSrc = true then .err
    else if c = 0x22 then .ok ([], cs)
    else if c = 0x5C then
      match cs with
      | [] => .err
      | e :: es =>
        if e = 0x75 then
          match es with
          | h1 :: h2 :: h3 :: h4 :: r => do
            let u := ((hexDigit h1 * 16 + hexDigit h2) * 16 + hexDigit h3) * 16 + hexDigit h4
            let t ← readStr cfg d r
            pure (storeUnicode u ++ t.1, t.2)
          | _ => .err
        else match simpleEsc e with
          | some b => do
            let t ← readStr cfg d es
            pure (b :: t.1, t.2)
          | none => .err
    else do
      let st := d.step (cfg.ext c)
      let t ← readStr cfg st.1 cs
      pure ((st.2.map storeUnicode).getD [] ++ t.1, t.2)

/-- `createValue` of `parseString` (parser.h:507-511): "∞" and "-∞" become infinities. -/
def stringValue (s : Bytes) : JV :=
  if s = [0xE2, 0x88, 0x9E] then .num (.inf false)
  else if s = [0x2D, 0xE2, 0x88, 0x9E] then .num (.inf true)
  else .str s

/-- `checkString` (parser.h:575-584). -/
def checkKw : Bytes → Bytes → Res Bytes
  | [], s => .ok s
  | _ :: _, [] => .err
  | k :: ks, c :: cs => if k = c then checkKw ks cs else .err

/-- End of `parseObject` (parser.h:333-340): construction and duplicate check. -/
def finishObj (cfg : Cfg) (ms : List (Bytes × JV)) (r : Bytes) : Res (JV × Bytes) :=
  let o := Obj.mkObject JV.defined false ms
  if cfg.allowDup = false ∧ o.length ≠ ms.length then .err else .ok (.obj o, r)

mutual
/-- `Parser::parse` (parser.h:265-282) with the dispatch to `parseObject` (285-290), `parseArray` (344-352),
`parseString`, keywords and numbers. The first argument bounds the recursion (see `C06_total`). -/
def parseV (cfg : Cfg) : Nat → Bytes → Res (JV × Bytes)
  | 0, _ => .fuel
  | f + 1, s =>
    match skipWs s with
    | [] => .err
    | c :: r =>
      if c = 0x7B then
        match skipWs r with
        | [] => .err
        | c' :: r' =>
          if c' = 0x7D then .ok (.obj [], r')
          else do
            let m ← parseMembers cfg f (c' :: r')
            finishObj cfg m.1 m.2
      else if c = 0x5B then
        match skipWs r with
        | [] => .err
        | c' :: r' =>
          if c' = 0x5D then .ok (.arr [], r')
          else do
            let m ← parseItems cfg f (c' :: r')
            pure (.arr m.1, m.2)
      else if c = 0x22 then do
        let t ← readStr cfg Utf8.Dec.init r
        pure (stringValue t.1, t.2)
      else if c = 0x74 then do
        let t ← checkKw (ascii "true") (c :: r)
        pure (.bool true, t)
      else if c = 0x66 then do
        let t ← checkKw (ascii "false") (c :: r)
        pure (.bool false, t)
      else if c = 0x6E then do
        let t ← checkKw (ascii "null") (c :: r)
        pure (.null, t)
      else if isDigit c = true ∨ c = 0x2B ∨ c = 0x2D ∨ c = 0x2E then parseNumber cfg (c :: r)
      else .err
/-- Loop of `parseObject` (parser.h:295-332); the argument starts at the key. -/
def parseMembers (cfg : Cfg) : Nat → Bytes → Res (List (Bytes × JV) × Bytes)
  | 0, _ => .fuel
  | _ + 1, [] => .err
  | f + 1, q :: r =>
    if q = 0x22 then do
      let k ← readStr cfg Utf8.Dec.init r
      match skipWs k.2 with
      | [] => .err
      | c :: r2 =>
        if c = 0x3A then do
          let v ← parseV cfg f r2
          match skipWs v.2 with
          | [] => .err
          | c2 :: r4 =>
            if c2 = 0x7D then pure ([(k.1, v.1)], r4)
            else if c2 = 0x2C then do
              let m ← parseMembers cfg f (skipWs r4)
              pure ((k.1, v.1) :: m.1, m.2)
            else .err
        else .err
    else .err
/-- Loop of `parseArray` (parser.h:353-386). -/
def parseItems (cfg : Cfg) : Nat → Bytes → Res (List JV × Bytes)
  | 0, _ => .fuel
  | f + 1, s => do
    let v ← parseV cfg f s
    match skipWs v.2 with
    | [] => .err
    | c2 :: r4 =>
      if c2 = 0x5D then pure ([v.1], r4)
      else if c2 = 0x2C then do
        let m ← parseItems cfg f r4
        pure (v.1 :: m.1, m.2)
      else .err
end

/-- `Value::parse` on a source that delivers `s` (parser.h:257-262, value.cpp:85-94): the value and what the source has
not been asked for (apart from one peeked character). -/
def parse (cfg : Cfg) (s : Bytes) : Res (JV × Bytes) := parseV cfg (2 * s.length + 1) s

/-- `Value::fromString` (value.cpp:85-94) with the default flags (`enableParsePreciseNumbers = false`,
value.cpp:319). Data after the value are ignored. -/
def fromString (tooLong : Nat → Bool) (s : Bytes) : Res JV := do
  let r ← parse { tooLong := tooLong } s
  pure r.1

end Imt.Parser
