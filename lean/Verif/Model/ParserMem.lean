import Verif.Model.Parser
/-!
# The scratch memory of the parser and the position in its errors (`parser.h`)

`Parser` keeps two vectors over all its recursive calls and over all calls of `parse` on the same object: `tmpstr`
collects the characters of strings and numbers, `tmpArr` the values of the arrays and objects being read
(parser.h:193-197). `Verif.Model.Parser` returns strings and items directly. Here the functions are repeated with the two
vectors, the positions inside of them, the `assert` of `freeString` and the contexts that `catch` blocks add to a
`ParseError`. Input is as in `Verif.Model.Parser`; what remains of it after an error is not kept.
`StringView::substr` is in the missing submodule and taken as clamping to the end of the view.
-/
namespace Imt.ParserMem
open Imt Imt.Parser

/-- `tmpstr` and `tmpArr` (parser.h:193-197). An item made by `Value(getString(name), v)` has a key (parser.h:312), an
item of an array has none (parser.h:355). -/
structure Mem where
  str : Bytes
  arr : List (Option Bytes × JV)
deriving DecidableEq

/-- Argument of `addContext` (parser.h:241-244): the name of a member or `[index]`. -/
inductive Ctx where
  | key (k : Bytes)
  | idx (i : Nat)
deriving DecidableEq

/-- Outcome of a function of the parser: its result, what is left of the input and the vectors; a `ParseError` with
the contexts added so far, first one first, and the vectors as the `catch` blocks leave them; failure of the assertion of
parser.h:522; recursion bound of the model. -/
inductive Out (α : Type) where
  | ok (a : α) (rest : Bytes) (m : Mem)
  | err (cs : List Ctx) (m : Mem)
  | assertion
  | fuel
deriving DecidableEq

/-- `StrIdx` (parser.h:60): position and length in `tmpstr`. -/
abbrev StrIdx := Nat × Nat

/-- `getString` (parser.h:62-64). -/
def getString (m : Mem) (i : StrIdx) : Bytes := (m.str.drop i.1).take i.2

/-- `freeString` (parser.h:520-525); `none` – the assertion fails. -/
def freeString (m : Mem) (i : StrIdx) : Option Mem :=
  if i.1 + i.2 = m.str.length then some { m with str := m.str.take i.1 } else none

/-- The conversion loop of `readString` (parser.h:533-564, utf8.h:78-99, parser.h:426-447): appends to `tmpstr`;
`none` – a `ParseError` was thrown. Digits missing after `\u` are read as -1 and count as zero, the error follows with
the next character. -/
def readLoop (cfg : Cfg) : Utf8.Dec → Bytes → Bytes → Option Bytes × Bytes
  | _, [], t => (none, t)
  | d, c :: cs, t =>
    if c = 0xFF ∧ cfg.signedSrc = true then (none, t)
    else if c = 0x22 then (some cs, t)
    else if c = 0x5C then
      match cs with
      | [] => (none, t)
      | e :: es =>
        if e = 0x75 then
          match es with
          | h1 :: h2 :: h3 :: h4 :: r =>
            let u := ((hexDigit h1 * 16 + hexDigit h2) * 16 + hexDigit h3) * 16 + hexDigit h4
            readLoop cfg d r (t ++ storeUnicode u)
          | hs =>
            let u := ((hexDigit (hs.getD 0 0) * 16 + hexDigit (hs.getD 1 0)) * 16 + hexDigit (hs.getD 2 0)) * 16
            (none, t ++ storeUnicode u)
        else match simpleEsc e with
          | some b => readLoop cfg d es (t ++ [b])
          | none => (none, t)
    else
      let st := d.step (cfg.ext c)
      readLoop cfg st.1 cs (t ++ (st.2.map storeUnicode).getD [])

/-- `readString` (parser.h:528-572): the `catch` block cuts `tmpstr` to its old length. -/
def readString (cfg : Cfg) (s : Bytes) (m : Mem) : Out StrIdx :=
  let start := m.str.length
  match readLoop cfg Utf8.Dec.init s m.str with
  | (some r, t) => .ok (start, t.length - start) r { m with str := t }
  | (none, t) => .err [] { m with str := t.take start }

/-- `parseString` (parser.h:505-517). -/
def parseString (cfg : Cfg) (s : Bytes) (m : Mem) : Out JV :=
  match readString cfg s m with
  | .ok i r m1 =>
    let v := stringValue (getString m1 i)
    match freeString m1 i with
    | some m2 => .ok v r m2
    | none => .assertion
  | .err cs m1 => .err cs m1
  | .assertion => .assertion
  | .fuel => .fuel

/-- What `parsePreciseNumber` has appended when it throws (parser.h:757-793). -/
def preciseSeen (s : Bytes) : Bytes :=
  let sg := takeSign s
  let ds := spanDigits sg.2
  let fr := takeFrac ds.2
  if ds.1 = [] then sg.1
  else match fr.2 with
    | [] => sg.1 ++ ds.1 ++ fr.1
    | c :: cs => if c = 0x65 ∨ c = 0x45 then sg.1 ++ ds.1 ++ fr.1 ++ [c] ++ (takeSign cs).1 else sg.1 ++ ds.1 ++ fr.1

/-- `parsePreciseNumber` (parser.h:753-807): position of the text and `hint_is_float`. -/
def parsePreciseNumber (s : Bytes) (m : Mem) : Out (StrIdx × Bool) :=
  let start := m.str.length
  match parsePrecise s with
  | .ok p => .ok ((start, (m.str ++ p.1).length - start), p.2.1) p.2.2 { m with str := m.str ++ p.1 }
  | _ => .err [] { m with str := (m.str ++ preciseSeen s).take start }

/-- `parseNumber` (parser.h:450-502): only precise numbers use `tmpstr`. -/
def parseNumber (cfg : Cfg) (s : Bytes) (m : Mem) : Out JV :=
  if cfg.precise then
    match parsePreciseNumber s m with
    | .ok i r m1 =>
      let v := JV.num (numberFromStringRaw (getString m1 i.1) i.2)
      match freeString m1 i.1 with
      | some m2 => .ok v r m2
      | none => .assertion
    | .err cs m1 => .err cs m1
    | .assertion => .assertion
    | .fuel => .fuel
  else
    match Parser.parseNumber cfg s with
    | .ok p => .ok p.1 p.2 m
    | .fuel => .fuel
    | _ => .err [] m

/-- `parseTrue`, `parseFalse`, `parseNull` (parser.h:391-409) with `checkString` (parser.h:575-584). -/
def parseKw (k : Bytes) (v : JV) (s : Bytes) (m : Mem) : Out JV :=
  match checkKw k s with
  | .ok r => .ok v r m
  | _ => .err [] m

/-- The second `catch` block of `parseObject` (parser.h:315-319). -/
def catchMember (cs : List Ctx) (name : StrIdx) (m : Mem) : Out Unit :=
  match freeString m name with
  | some m' => .err (cs ++ [.key (getString m name)]) m'
  | none => .assertion

/-- End of `parseObject` (parser.h:333-340): on a duplicate key `tmpArr` is not cut. -/
def finishObj (cfg : Cfg) (pos : Nat) (r : Bytes) (m : Mem) : Out JV :=
  let mydata := (m.arr.drop pos).map fun p => (p.1.getD [], p.2)
  let res := Obj.mkObject JV.defined false mydata
  if cfg.allowDup = false ∧ res.length ≠ mydata.length then .err [] m
  else .ok (.obj res) r { m with arr := m.arr.take pos }

mutual
/-- `Parser::parse` (parser.h:265-282) with `parseObject` (285-292, 333-340) and `parseArray` (344-351, 383-388). At the
end of the input just after `[` the loop of `parseArray` runs and its first call of `parse` throws (parser.h:275, 355-362). -/
def parseV (cfg : Cfg) : Nat → Bytes → Mem → Out JV
  | 0, _, _ => .fuel
  | f + 1, s, m =>
    match skipWs s with
    | [] => .err [] m
    | c :: r =>
      if c = 0x7B then
        match skipWs r with
        | [] => .err [] m
        | c' :: r' =>
          if c' = 0x7D then .ok (.obj []) r' m
          else match parseMembers cfg f (0, 0) (c' :: r') m with
            | .ok _ r2 m2 => finishObj cfg m.arr.length r2 m2
            | .err cs m2 => .err cs m2
            | .assertion => .assertion
            | .fuel => .fuel
      else if c = 0x5B then
        match skipWs r with
        | [] => .err [.idx 0] m
        | c' :: r' =>
          if c' = 0x5D then .ok (.arr []) r' m
          else match parseItems cfg f m.arr.length (c' :: r') m with
            | .ok _ r2 m2 =>
              .ok (.arr ((m2.arr.drop m.arr.length).map (·.2))) r2 { m2 with arr := m2.arr.take m.arr.length }
            | .err cs m2 => .err cs m2
            | .assertion => .assertion
            | .fuel => .fuel
      else if c = 0x22 then parseString cfg r m
      else if c = 0x74 then parseKw (ascii "true") (.bool true) (c :: r) m
      else if c = 0x66 then parseKw (ascii "false") (.bool false) (c :: r) m
      else if c = 0x6E then parseKw (ascii "null") .null (c :: r) m
      else if isDigit c = true ∨ c = 0x2B ∨ c = 0x2D ∨ c = 0x2E then parseNumber cfg (c :: r) m
      else .err [] m
/-- Loop of `parseObject` (parser.h:293-332); `name` is the variable of line 293, which keeps the previous key when
`readString` throws (lines 299-305). -/
def parseMembers (cfg : Cfg) : Nat → StrIdx → Bytes → Mem → Out Unit
  | 0, _, _, _ => .fuel
  | _ + 1, _, [], m => .err [] m
  | f + 1, name, q :: r, m =>
    if q = 0x22 then
      match readString cfg r m with
      | .ok name' r1 m1 =>
        match skipWs r1 with
        | [] => catchMember [] name' m1
        | c :: r2 =>
          if c = 0x3A then
            match parseV cfg f r2 m1 with
            | .ok v r3 m2 =>
              match freeString { m2 with arr := m2.arr ++ [(some (getString m2 name'), v)] } name' with
              | none => .assertion
              | some m3 =>
                match skipWs r3 with
                | [] => .err [] m3
                | c2 :: r4 =>
                  if c2 = 0x7D then .ok () r4 m3
                  else if c2 = 0x2C then parseMembers cfg f name' (skipWs r4) m3
                  else .err [] m3
            | .err cs m2 => catchMember cs name' m2
            | .assertion => .assertion
            | .fuel => .fuel
          else catchMember [] name' m1
      | .err cs m1 => .err (cs ++ [.key (getString m1 name)]) m1
      | .assertion => .assertion
      | .fuel => .fuel
    else .err [] m
/-- Loop of `parseArray` (parser.h:353-382); `pos` is `tmpArrPos`. -/
def parseItems (cfg : Cfg) : Nat → Nat → Bytes → Mem → Out Unit
  | 0, _, _, _ => .fuel
  | f + 1, pos, s, m =>
    match parseV cfg f s m with
    | .ok v r m1 =>
      let m2 : Mem := { m1 with arr := m1.arr ++ [(none, v)] }
      match skipWs r with
      | [] => .err [.idx (m2.arr.length - pos)] m2
      | c2 :: r4 =>
        if c2 = 0x5D then .ok () r4 m2
        else if c2 = 0x2C then parseItems cfg f pos r4 m2
        else .err [.idx (m2.arr.length - pos)] m2
    | .err cs m1 => .err (cs ++ [.idx (m1.arr.length - pos)]) m1
    | .assertion => .assertion
    | .fuel => .fuel
end

/-- `parse` on a parser object whose vectors are `m` (parser.h:257-265), as `Parser.parse`. -/
def parse (cfg : Cfg) (s : Bytes) (m : Mem) : Out JV := parseV cfg (2 * s.length + 1) s m

/-- The vectors of a new parser (parser.h:43, 193-197). -/
def fresh : Mem := ⟨[], []⟩

/-- Several calls of `parse` on the same parser object, each on a text of its own: the values, `none` for a `ParseError`,
and the vectors at the end. The source must not deliver anything of a text after its error; what it does is up to the
caller. -/
def parseAll (cfg : Cfg) : List Bytes → Mem → Option (List (Option (JV × Bytes)) × Mem)
  | [], m => some ([], m)
  | s :: ss, m =>
    match parse cfg s m with
    | .ok v r m1 => (parseAll cfg ss m1).map fun p => (some (v, r) :: p.1, p.2)
    | .err _ m1 => (parseAll cfg ss m1).map fun p => (none :: p.1, p.2)
    | _ => none

/-! ### `ParseError` -/

/-- Text of a context (parser.h:303, 316: the key; 358-360, 377-379: the index in brackets). -/
def Ctx.text : Ctx → Bytes
  | .key k => k
  | .idx i => ascii "[" ++ ascii (toString i) ++ ascii "]"

/-- Members of `ParseError` (parser.h:247-251). -/
structure PErr where
  msg : Bytes
  lastInput : Int
  callstack : List Bytes
  whatmsg : Bytes

/-- The text made by `what` (parser.h:215-235). -/
def PErr.render (e : PErr) : Bytes :=
  ascii "Parse error: '" ++ e.msg ++ ascii "' at <root>"
    ++ (e.callstack.reverse.flatMap fun c => ascii "/" ++ c)
    ++ (if e.lastInput ≠ -100 then
          ascii ". Last input: " ++ ascii (toString e.lastInput) ++ ascii "("
            ++ (if e.lastInput = -1 then ascii "EOF" else ascii "'" ++ [(e.lastInput % 256).toNat] ++ ascii "'")
            ++ ascii ")."
        else ascii ". Last input not given.")

/-- `what` (parser.h:213-239): the text is made once and kept. -/
def PErr.what (e : PErr) : Bytes × PErr :=
  if e.whatmsg = [] then (e.render, { e with whatmsg := e.render }) else (e.whatmsg, e)

/-- `addContext` (parser.h:241-244). -/
def PErr.addContext (e : PErr) (c : Bytes) : PErr := { e with whatmsg := [], callstack := e.callstack ++ [c] }

/-- A use of the error on its way up: look at its text or add a context. -/
inductive PUse where
  | what
  | add (c : Bytes)

/-- One use. -/
def PErr.use (e : PErr) : PUse → PErr
  | .what => e.what.2
  | .add c => e.addContext c

/-- The constructor (parser.h:211). -/
def PErr.new (msg : Bytes) (lastInput : Int) : PErr := ⟨msg, lastInput, [], []⟩

end Imt.ParserMem
