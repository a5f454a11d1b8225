import Verif.Model.Base
/-!
# Stream compressor (`compress.h`, `compress.tcc`)

`ChainCode` is a 32-bit unsigned number; the codes of the compressor stay far below that bound (see `C90_bounded`), so they are natural numbers
here. The decompressor adds one entry per code read; input of more than 2^32 codes is not considered.
`initialChainCode` is `none`. Uninitialised members are `none`; copying one is allowed here, computing with it is not (a value that is
copied uninitialised, when the next dictionary is full, is not used any more).
The hash map of the compressor is the list of its pairs in order of insertion, found by key; the stack of the decompressor is a list.
-/
namespace Imt.Compr
open Imt

/-- compress.h:13-26. -/
def codeShift : Nat := 26
def firstCode : Nat := 128 - codeShift
def extCodeMask : Nat := 0x80
def maxCodeToEncode : Nat := 0x7F * 256 + 0xFF + extCodeMask
def flushCode : Nat := maxCodeToEncode
def optimizeCode : Nat := maxCodeToEncode - 1
def maxCode : Nat := maxCodeToEncode - 2
def maxCodeForOptimize : Nat := maxCode - 16

/-- `write(code)` (compress.tcc:121-135): one byte, or two with the high bit set in the first. -/
def wr (code : Nat) : Bytes :=
  if code < extCodeMask then [code]
  else [((code - extCodeMask) / 256) % 256 ||| extCodeMask, (code - extCodeMask) % 256]

/-! ### Compressor -/

/-- `SeqInfo` (compress.h:40-49). -/
structure Info where
  next : Nat
  new : Option Nat := none
  used : Bool := false
deriving Repr, DecidableEq

/-- Pairs of the hash map. -/
abbrev SeqDB := List ((Nat × Nat) × Info)

/-- `find`. -/
def cfind (db : SeqDB) (k : Nat × Nat) : Option Info := (db.find? (fun e => e.1 == k)).map (·.2)

/-- `insert` leaves an existing key. -/
def cinsert (db : SeqDB) (k : Nat × Nat) (i : Info) : SeqDB :=
  match cfind db k with
  | some _ => db
  | none => db ++ [(k, i)]

/-- `Compress` (compress.h:61-136) with its optimizer. -/
structure Comp where
  db : SeqDB := []
  nextCode : Nat := firstCode
  lastSeq : Option Nat := none
  lastNew : Option Nat := none
  ndb : SeqDB := []
  nnext : Nat := firstCode
  utf8len : Nat := 0
  out : Bytes := []
deriving Repr, DecidableEq

/-- `Optimizer::addCode(lastNewSeq, c, nfo)` for the pair `k` (compress.h:106-118). -/
def addCode (s : Comp) (k : Nat × Nat) : Res Comp :=
  if s.nnext < maxCodeForOptimize then
    match s.lastNew with
    | none => .ub
    | some n => .ok { s with
        ndb := cinsert s.ndb (n, k.2) { next := s.nnext }
        db := s.db.map (fun e => if e.1 = k then (e.1, { e.2 with new := some s.nnext, used := true }) else e)
        nnext := s.nnext + 1 }
  else .ok s

/-- `write(code)`. -/
def Comp.write (s : Comp) (code : Nat) : Comp := { s with out := s.out ++ wr code }

/-- The walk goes on with the pair `k` (compress.tcc:106-115). -/
def advance (s : Comp) (k : Nat × Nat) (i : Info) : Res Comp := do
  let s ← if i.used then .ok s else addCode s k
  .ok { s with lastSeq := some i.next, lastNew := (cfind s.db k).bind (·.new) }

/-- `compress(c)` (compress.tcc:71-118). -/
def compressSym (s : Comp) (c : Nat) : Res Comp :=
  if c ≥ firstCode then .err
  else
    match s.lastSeq with
    | none => .ok { s with lastSeq := some c, lastNew := some c }
    | some q =>
      match cfind s.db (q, c) with
      | none =>
        let s := s.write q
        .ok { s with
          db := cinsert s.db (q, c) { next := s.nextCode }
          nextCode := s.nextCode + 1
          lastSeq := some c
          lastNew := some c }
      | some i =>
        if i.next ≥ maxCode then
          let s := (s.write q).write optimizeCode
          .ok { s with db := s.ndb, nextCode := s.nnext, ndb := [], nnext := firstCode, lastSeq := some c, lastNew := some c }
        else advance s (q, c) i

/-- `compress(a); compress(b); utf8len = n`. -/
def compress2 (s : Comp) (a b n : Nat) : Res Comp := do
  let s ← compressSym s a
  let s ← compressSym s b
  .ok { s with utf8len := n }

/-- `operator()(c)` (compress.tcc:32-68); `c` is the byte. -/
def put (s : Comp) (c : Nat) : Res Comp :=
  if s.utf8len ≠ 0 then compressSym { s with utf8len := s.utf8len - 1 } (c &&& 0x7F)
  else if c &&& 0x80 ≠ 0 then
    if c &&& 0xE0 = 0xC0 then compress2 s 1 (c &&& 0x3F) 1
    else if c &&& 0xF0 = 0xE0 then compress2 s 2 (c &&& 0x1F) 2
    else if c &&& 0xF8 = 0xF0 then compress2 s 3 (c &&& 0x0F) 3
    else if c &&& 0xFC = 0xF8 then compress2 s 4 (c &&& 0x0F) 4
    else .err
  else if c < 32 then .err
  else compressSym s (c - codeShift)

/-- All characters of a text. -/
def putAll (s : Comp) : Bytes → Res Comp
  | [] => .ok s
  | c :: l => do
    let s ← put s c
    putAll s l

/-- The destructor (compress.tcc:15-20). -/
def finish (s : Comp) : Bytes :=
  match s.lastSeq with
  | none => s.out
  | some q => ((s.write q).write flushCode).out

/-- Compress a text by a new compressor. -/
def compressAll (l : Bytes) : Res Bytes := do
  let s ← putAll {} l
  .ok (finish s)

/-! ### Decompressor -/

/-- `DecInfo` (compress.h:158-170). -/
structure DInfo where
  prev : Nat
  ch : Nat
  new : Option Nat := none
  used : Bool := false
deriving Repr, DecidableEq

/-- `Decompress` (compress.h:138-220); `inp` – what `input` will return, then -1 for ever. -/
structure Dec where
  db : List DInfo := []
  ready : List Nat := []
  firstChar : Option Nat := none
  prev : Option Nat := none
  ndb : List DInfo := []
  utf8len : Nat := 0
  inp : Bytes := []
deriving Repr, DecidableEq

/-- `(unsigned char)input()`. -/
def nextByte : Bytes → Nat × Bytes
  | [] => (0xFF, [])
  | b :: l => (b, l)

/-- `read` (compress.tcc:337-345). -/
def readCode (inp : Bytes) : Nat × Bytes :=
  let (b, inp) := nextByte inp
  if b &&& extCodeMask ≠ extCodeMask then (b, inp)
  else
    let (b2, inp) := nextByte inp
    ((b &&& 0x7F) * 256 + b2 + extCodeMask, inp)

/-- Dictionary and the dictionary under construction. -/
abbrev Dicts := List DInfo × List DInfo

/-- `Optimizer::addCode(seqdb[i], pt)` (compress.h:191-198). -/
def daddCode (s : Dicts) (i : Nat) (pt : Option Nat) : Res Dicts :=
  match s.1[i]? with
  | none => .ub
  | some d =>
    let newCode := s.2.length + firstCode
    if newCode < maxCodeForOptimize then
      match pt with
      | none => .ub
      | some p => .ok (s.1.set i { d with used := true, new := some newCode }, s.2 ++ [{ prev := p, ch := d.ch }])
    else .ok s

/-- `translatePrevCode` (compress.tcc:287-297); the recursion depth is limited by `fuel`, which is enough for the size of the dictionary
if previous codes are smaller. -/
def translate : Nat → Dicts → Nat → Res (Dicts × Option Nat)
  | fuel, s, p =>
    if p < firstCode then .ok (s, some p)
    else
      match s.1[p - firstCode]? with
      | none => .ub
      | some d =>
        if d.used then .ok (s, d.new)
        else
          match fuel with
          | 0 => .fuel
          | fuel + 1 => do
            let (s, prev) ← translate fuel s d.prev
            let s ← daddCode s (p - firstCode) prev
            .ok (s, (s.1[p - firstCode]?).bind (·.new))

/-- The loop `while (p >= firstCode)` (compress.tcc:256-267) with the stack. Result: dictionaries, stack, last `p`. -/
def expandLoop : Nat → Dicts → List Nat → Nat → Res (Dicts × List Nat × Nat)
  | fuel, s, st, p =>
    if p < firstCode then .ok (s, st, p)
    else
      match s.1[p - firstCode]? with
      | none => .ub
      | some d =>
        match fuel with
        | 0 => .fuel
        | fuel + 1 => do
          let s ← if d.used then .ok s else do
            let (s, pt) ← translate (s.1.length + 1) s d.prev
            daddCode s (p - firstCode) pt
          expandLoop fuel s (d.ch :: st) d.prev

/-- Registration of the new code (compress.tcc:272-277); `used` – it was used at once. -/
def register (s : Dicts) (prev : Option Nat) (first : Nat) (used : Bool) : Res Dicts :=
  match prev with
  | none => .ok s
  | some q =>
    let nextCode := s.1.length + firstCode
    let s : Dicts := (s.1 ++ [{ prev := q, ch := first }], s.2)
    if used then do
      let (s, _) ← translate (s.1.length + 1) s nextCode
      .ok s
    else .ok s

/-- Expansion of the code `cc` (compress.tcc:232-281). The walk starts from `initialChainCode` if there is no previous code. -/
def expand (d : Dec) (cc : Nat) : Res (Nat × Dec) :=
  let nextCode := d.db.length + firstCode
  if cc = nextCode then
    match d.firstChar, d.prev with
    | some f, some q => do
      let (s, st, p) ← expandLoop (d.db.length + 1) (d.db, d.ndb) [f] q
      let s ← register s d.prev p true
      .ok (p, { d with db := s.1, ndb := s.2, ready := st, firstChar := some p, prev := some cc })
    | _, _ => .ub
  else if cc > nextCode then .err
  else do
    let (s, st, p) ← expandLoop (d.db.length + 1) (d.db, d.ndb) [] cc
    let s ← register s d.prev p false
    .ok (p, { d with db := s.1, ndb := s.2, ready := st, firstChar := some p, prev := some cc })

/-- `decompress()` (compress.tcc:198-284); 255 is `(char)-1`. The recursion after `optimizeCode` consumes input; at the end of the input there is
the flush code. -/
def decompress : Nat → Dec → Res (Nat × Dec)
  | fuel, d =>
    match d.ready with
    | c :: r => .ok (c, { d with ready := r })
    | [] =>
      let (cc, inp) := readCode d.inp
      let d := { d with inp := inp }
      if cc = flushCode then .ok (255, { d with db := [], prev := none })
      else if cc = optimizeCode then
        match fuel with
        | 0 => .fuel
        | fuel + 1 => decompress fuel { d with db := d.ndb, ndb := [], prev := none }
      else expand d cc

/-- `decompress()` with enough depth. -/
def decomp (d : Dec) : Res (Nat × Dec) := decompress (d.inp.length + 1) d

/-- Lead byte (compress.tcc:189-192). -/
def lead (d : Dec) (n mask : Nat) : Res (Nat × Dec) := do
  let (c, d) ← decomp { d with utf8len := n }
  .ok (c ||| mask, d)

/-- `operator()()` (compress.tcc:179-196); the byte of the character. -/
def get (d : Dec) : Res (Nat × Dec) := do
  let (c, d) ← decomp d
  if d.utf8len ≠ 0 then .ok (c ||| 0x80, { d with utf8len := d.utf8len - 1 })
  else if c = 255 then .ok (255, d)
  else if c = 1 then lead d 1 0xC0
  else if c = 2 then lead d 2 0xE0
  else if c = 3 then lead d 3 0xF0
  else if c = 4 then lead d 4 0xF8
  else .ok ((c + codeShift) % 256, d)

/-- Characters until -1, at most `n`. -/
def getAll : Nat → Dec → Res (Bytes × Dec)
  | 0, _ => .fuel
  | n + 1, d => do
    let (c, d) ← get d
    if c = 255 then .ok ([], d)
    else do
      let (l, d) ← getAll n d
      .ok (c :: l, d)

end Imt.Compr
