import Verif.Model.Base64
/-!
# Binary JSON (`binjson.h`, `binjson.tcc`)

LP64: `sizeof(std::size_t) = sizeof(std::uint64_t) = 8`, little endian (`writePOD`, `readPOD` copy the object
representation).
-/
namespace Imt.BinJson
open Imt

/-- What a node is. Integers carry the `longInt` flag (basicValues.h:120-123, stringValue.cpp:160-174); `uint _ 0` is the shared zero
(basicValues.cpp:20-28). Doubles are their 64-bit pattern. Precise numbers are serialised by their class, as a `long`
integer or as a double, so they are covered by those (binjson.tcc:183-209). -/
inductive Shape where
  | undef
  | null
  | bool (b : Bool)
  | uint (long : Bool) (n : Nat)
  | int (long : Bool) (i : Int)
  | dbl (bits : Nat)
  | str (s : Bytes)
  | bin (s : Bytes)
  | arr
  | obj (diff : Bool)
deriving Repr, DecidableEq

/-- A value with the key bound to it (`getMemberName`, empty when none) and its items (empty unless a container). -/
inductive BV where
  | node (key : Bytes) (sh : Shape) (kids : List BV)
deriving Repr

/-- `bindKeyToPValue` (object.cpp:27-35): the key replaces a key bound before. -/
def BV.withKey (k : Bytes) : BV → BV
  | .node _ sh l => .node k sh l

/-- `BinarySerializeFlags` (ivalue.h:137-176, used at binjson.tcc:79, 131, 167). -/
structure Flags where
  compressKeys : Bool := false
  compressTokens : Bool := false
  compat32 : Bool := false
deriving Repr, DecidableEq

/-- Environment. `f64` converts an unsigned integer to the bits of a double. `avail` says whether an allocation of
that many bytes succeeds (otherwise `operator new` throws). `objStr`, `magic`, `objArr` are the sizes of the fixed parts
of `StringValue` (stringValue.cpp:74-78) and of the containers (container.h:168-175). `binEnc`: the parser was given a
non-null encoding for binary strings. `eofThrows`: the source throws at the end of its data instead of returning -1.
`junk` are the bytes an uninitialised buffer holds. -/
structure Env where
  f64 : Nat → Nat
  avail : Nat → Bool := fun n => n < 2 ^ 40
  objStr : Nat := 36
  magic : Nat := 8
  objArr : Nat := 48
  binEnc : Bool := true
  eofThrows : Bool := true
  junk : Nat → Nat := fun _ => 0

/-! ## Serializer -/

/-- Little endian representation in `k` bytes (`writePOD`, binjson.tcc:413-425). -/
def le : Nat → Nat → Bytes
  | 0, _ => []
  | k + 1, n => n % 256 :: le k (n / 256)

/-- State of the key dictionary (binjson.h:101-109): `keyMap` (absent keys have id 0) and `nextKeyId` (32 bits). -/
structure SS where
  ids : Bytes → Nat
  next : Nat

/-- Initial dictionary. -/
def SS.init : SS := ⟨fun _ => 0, 256⟩

/-- `tryCompressKey` (binjson.tcc:450-462): `some code` or a new key. -/
def tryCompressKey (ss : SS) (key : Bytes) : Option Nat × SS :=
  let dist := (ss.next + (2 ^ 32 - ss.ids key) + (2 ^ 32 - 1)) % 2 ^ 32
  if dist < 128 then (some dist, ss)
  else (none, ⟨fun k => if k = key then ss.next else ss.ids k, (ss.next + 1) % 2 ^ 32⟩)

/-- `serializeInteger` (binjson.tcc:151-175). -/
def serInteger (fl : Flags) (env : Env) (n type : Nat) : Bytes :=
  if n < 10 then [type + n]
  else if n ≤ 0xFF then (type + 0xA) :: le 1 n
  else if n ≤ 0xFFFF then (type + 0xB) :: le 2 n
  else if n ≤ 0xFFFFFFFF then (type + 0xC) :: le 4 n
  else if fl.compat32 then 6 :: le 8 (env.f64 n)
  else (type + 0xD) :: le 8 n

/-- `serialize64bit` (binjson.tcc:177-180). -/
def ser64 (n type : Nat) : Bytes := (type + 0xD) :: le 8 n

/-- Characters accepted by `canCompressString` (binjson.tcc:113-120), C locale. -/
def isTok (c : Nat) : Bool :=
  (48 ≤ c && c ≤ 57) || (65 ≤ c && c ≤ 90) || (97 ≤ c && c ≤ 122) || c == 0x5F || c == 0x2D

/-- `canCompressString` (binjson.tcc:113-120). -/
def canCompress (s : Bytes) : Bool := decide (s.length > 4) && s.all isTok

/-- Content of the string after its length (binjson.tcc:122-149). `bin` for binary strings. The buffer of the
compressed form has `((len-1)*3+3)/4` bytes; the bytes written by `decoderCore` are `done` and the partial `cur`. -/
def serChars (fl : Flags) (s : Bytes) (bin : Bool) : Res Bytes :=
  match s with
  | [] => .ok []
  | c :: cs =>
    if bin then .ok (c :: cs)
    else if fl.compressTokens && canCompress (c :: cs) then do
      let cap := (cs.length * 3 + 3) / 4
      let table := Base64.mkTable Base64.charsUrl
      let d ← Base64.decLoop table cap 0 ⟨[], 0⟩ cs
      pure ((table.getD c 0xFF ||| 0x80) :: (d.done ++ [d.cur]).take cap)
    else .ok ((c ||| ((c &&& 0x80) >>> 1)) :: cs)

/-- `serializeString` (binjson.tcc:122-149). -/
def serString (fl : Flags) (env : Env) (s : Bytes) (type : Nat) : Res Bytes := do
  let b ← serChars fl s (decide (type = 0x10))
  pure (serInteger fl env s.length type ++ b)

/-- Key part of `serialize` (binjson.tcc:77-87). -/
def serKey (fl : Flags) (env : Env) (ss : SS) (key : Bytes) : Res (Bytes × SS) :=
  if key = [] then .ok ([], ss)
  else if fl.compressKeys then
    match tryCompressKey ss key with
    | (some code, ss') => .ok ([0x80 ||| code], ss')
    | (none, ss') => do
      let b ← serString fl env key 0x70
      pure (b, ss')
  else do
    let b ← serString fl env key 0x70
    pure (b, ss)

/-- `serializeNumber` for signed integers (binjson.tcc:186-195): negating the most negative one overflows. -/
def serInt (fl : Flags) (env : Env) (long : Bool) (i : Int) : Res Bytes :=
  if i = -2 ^ 63 then .ub
  else if long then .ok (ser64 i.natAbs (if i < 0 then 0x30 else 0x20))
  else .ok (serInteger fl env i.natAbs (if i < 0 then 0x30 else 0x20))

/-- Scalar part of `serialize` (binjson.tcc:88-101, 183-225). Containers: the item count. -/
def serShape (fl : Flags) (env : Env) (sh : Shape) (cnt : Nat) : Res Bytes :=
  match sh with
  | .undef => .ok [2]
  | .null => .ok [1]
  | .bool b => .ok [if b then 3 else 4]
  | .uint long n => .ok (if long then ser64 n 0x20 else serInteger fl env n 0x20)
  | .int long i => serInt fl env long i
  | .dbl bits => .ok (6 :: le 8 bits)
  | .str s => serString fl env s 0x40
  | .bin s => serString fl env s 0x10
  | .arr => .ok (serInteger fl env cnt 0x60)
  | .obj _ => .ok (serInteger fl env cnt 0x50)

mutual
/-- `serialize` (binjson.tcc:75-102) and `serializeContainer` (104-111). -/
def ser (fl : Flags) (env : Env) (ss : SS) : BV → Res (Bytes × SS)
  | .node key sh kids => do
    let k ← serKey fl env ss key
    let b ← serShape fl env sh kids.length
    let r ← serL fl env k.2 kids
    pure (k.1 ++ (b ++ r.1), r.2)
/-- Items one after another. -/
def serL (fl : Flags) (env : Env) (ss : SS) : List BV → Res (Bytes × SS)
  | [] => .ok ([], ss)
  | v :: l => do
    let a ← ser fl env ss v
    let r ← serL fl env a.2 l
    pure (a.1 ++ r.1, r.2)
end

/-! ## Parser -/

/-- State: unread bytes, `keyHistory`, `keyIndex` (32 bits). -/
structure PS where
  s : Bytes
  hist : List Bytes
  ki : Nat
deriving Repr, DecidableEq

/-- One call of `fn`, converted to `unsigned char`: -1 at the end becomes 255. -/
def next (env : Env) (ps : PS) : Res (Nat × PS) :=
  match ps.s with
  | c :: r => .ok (c, { ps with s := r })
  | [] => if env.eofThrows then .err else .ok (255, ps)

/-- `n` calls of `fn`. -/
def readN (env : Env) : Nat → PS → Res (Bytes × PS)
  | 0, ps => .ok ([], ps)
  | n + 1, ps => do
    let c ← next env ps
    let r ← readN env n c.2
    pure (c.1 :: r.1, r.2)

/-- Value of a little endian byte string (`readPOD`, binjson.tcc:341-347). -/
def ofLe : Bytes → Nat
  | [] => 0
  | b :: r => b + 256 * ofLe r

/-- `parseInteger` (binjson.tcc:305-336). -/
def parseInteger (env : Env) (tag : Nat) (ps : PS) : Res (Nat × PS) :=
  let go (k : Nat) : Res (Nat × PS) := do
    let r ← readN env k ps
    pure (ofLe r.1, r.2)
  match tag % 16 with
  | 0xA => go 1
  | 0xB => go 2
  | 0xC => go 4
  | 0xD => go 8
  | n => .ok (n, ps)

/-- Allocation of a `StringValue` for `sz` bytes and the store of its terminator (stringValue.cpp:74-78,
stringValue.h:51): size arithmetic is modulo 2^64. -/
def allocStr (env : Env) (sz : Nat) : Res Unit :=
  let m := max ((sz + 1) % 2 ^ 64) env.magic
  if env.avail ((env.objStr + m) % 2 ^ 64) = false then .err
  else if env.objStr + m ≥ 2 ^ 64 ∨ m < sz + 1 then .ub
  else .ok ()

/-- Compressed string (binjson.tcc:267-288): the buffer has `sz` bytes, `cnt` are read, the rest is uninitialised; the
output of the encoder is cut at `sz`. -/
def readToken (env : Env) (sz x : Nat) (ps : PS) : Res (Bytes × PS) := do
  let cnt := ((sz - 1) * 3 + 3) % 2 ^ 64 / 4
  let first ← Base64.lookup Base64.charsUrl (x % 64)
  let r ← readN env cnt ps
  let buffer := r.1 ++ (List.range (sz - cnt)).map (fun i => env.junk i % 256)
  let t ← Base64.encodeCore Base64.charsUrl false buffer
  pure (first :: t.take (sz - 1), r.2)

/-- `parseString` (binjson.tcc:261-303); `enc` says whether the encoding is non-null. -/
def parseString (env : Env) (tag : Nat) (enc : Bool) (ps : PS) : Res (Bytes × PS) := do
  let n ← parseInteger env tag ps
  let sz := n.1
  if sz = 0 then pure ([], n.2)
  else if enc = false then do
    let x ← next env n.2
    allocStr env sz
    if x.1 / 64 = 2 then readToken env sz x.1 x.2
    else do
      let r ← readN env (sz - 1) x.2
      pure (x.1 :: r.1, r.2)
  else do
    allocStr env sz
    readN env sz n.2

/-- `storeKey` (binjson.tcc:476-485): assigning past the end of the vector is undefined. -/
def storeKey (ps : PS) (k : Bytes) : Res PS :=
  let idx := ps.ki % 128
  if ps.hist.length = idx then .ok ⟨ps.s, ps.hist ++ [k], (ps.ki + 1) % 2 ^ 32⟩
  else if idx < ps.hist.length then .ok ⟨ps.s, ps.hist.set idx k, (ps.ki + 1) % 2 ^ 32⟩
  else .ub

/-- Back reference (binjson.tcc:403-408). -/
def histKey (ps : PS) (tag : Nat) : Bytes := ps.hist.getD ((ps.ki + (2 ^ 32 - 1) + (2 ^ 32 - tag)) % 2 ^ 32 % 128) []

/-- Conversion of a `float` to `double` (binjson.tcc:435-439, value.cpp:285-290), on the patterns of IEEE 754: exact for numbers, the
signalling NaNs become quiet. -/
def widen (f : Nat) : Nat :=
  let s := f / 2 ^ 31 * 2 ^ 63
  let e := f / 2 ^ 23 % 256
  let m := f % 2 ^ 23
  if e = 255 then s + 2047 * 2 ^ 52 + m * 2 ^ 29 + (if 0 < m ∧ m < 2 ^ 22 then 2 ^ 51 else 0)
  else if e = 0 then
    if m = 0 then s else s + (Nat.log2 m + 874) * 2 ^ 52 + (m - 2 ^ Nat.log2 m) * 2 ^ (52 - Nat.log2 m)
  else s + (e + 896) * 2 ^ 52 + m * 2 ^ 29

/-- `Value(double)` (value.cpp:278-283): zero (of either sign) is the shared zero. -/
def ofDouble (bits : Nat) : Shape := if bits = 0 ∨ bits = 2 ^ 63 then .uint false 0 else .dbl bits

/-- `Value(-(Int)n)` (binjson.tcc:391-396): conversion to signed wraps, negating the most negative number overflows. -/
def negInt (n : Nat) : Res Shape :=
  if n = 0 then .ok (.uint false 0)
  else if n < 2 ^ 63 then .ok (.int false (-(n : Int)))
  else if n = 2 ^ 63 then .ub
  else .ok (.int false ((2 ^ 64 - n : Nat) : Int))

/-- Container allocation (container.h:168-175): number of slots that fit, modulo 2^64; `ub` when not even the object
does. -/
def allocArr (env : Env) (sz : Nat) : Res Nat :=
  let need := (env.objArr + sz * 8) % 2 ^ 64
  if env.avail need = false then .err
  else if need < env.objArr then .ub
  else .ok ((need - env.objArr) / 8)

mutual
/-- `parseItem` (binjson.tcc:362-411) with `parseDiff` (441-448), `parseArray` (240-248), `parseObject` (250-259).
`fuel` bounds the recursion. -/
def parseItem (env : Env) : Nat → PS → Res (BV × PS)
  | 0, _ => .fuel
  | f + 1, ps => do
    let t ← next env ps
    let tag := t.1
    let ps := t.2
    match tag / 16 with
    | 0 =>
      if tag = 1 then pure (.node [] .null [], ps)
      else if tag = 4 then pure (.node [] (.bool false) [], ps)
      else if tag = 3 then pure (.node [] (.bool true) [], ps)
      else if tag = 2 then pure (.node [] .undef [], ps)
      else if tag = 6 then do
        let r ← readN env 8 ps
        pure (.node [] (ofDouble (ofLe r.1)) [], r.2)
      else if tag = 5 then do
        let r ← readN env 4 ps
        pure (.node [] (ofDouble (widen (ofLe r.1))) [], r.2)
      else if tag = 15 then do
        let o ← next env ps
        if o.1 / 16 = 5 then do
          let n ← parseInteger env o.1 o.2
          let slots ← allocArr env n.1
          let r ← parseItems env f n.1 slots n.2
          pure (.node [] (.obj true) r.1, r.2)
        else .err
      else .err
    | 6 => do
      let n ← parseInteger env tag ps
      let slots ← allocArr env n.1
      let r ← parseItems env f n.1 slots n.2
      pure (.node [] .arr r.1, r.2)
    | 5 => do
      let n ← parseInteger env tag ps
      let slots ← allocArr env n.1
      let r ← parseItems env f n.1 slots n.2
      pure (.node [] (.obj false) r.1, r.2)
    | 4 => do
      let r ← parseString env tag false ps
      pure (.node [] (.str r.1) [], r.2)
    | 1 => do
      let r ← parseString env tag env.binEnc ps
      pure (.node [] (if r.1 = [] then .str [] else if env.binEnc then .bin r.1 else .str r.1) [], r.2)
    | 2 => do
      let n ← parseInteger env tag ps
      pure (.node [] (.uint false n.1) [], n.2)
    | 3 => do
      let n ← parseInteger env tag ps
      let sh ← negInt n.1
      pure (.node [] sh [], n.2)
    | 7 => do
      let k ← parseString env tag false ps
      let ps ← storeKey k.2 k.1
      let v ← parseItem env f ps
      pure (v.1.withKey k.1, v.2)
    | _ => do
      let k := histKey ps tag
      let v ← parseItem env f ps
      pure (v.1.withKey k, v.2)
/-- The loop over the items; each one is stored in the next slot of the container. -/
def parseItems (env : Env) : Nat → Nat → Nat → PS → Res (List BV × PS)
  | 0, _, _, _ => .fuel
  | _ + 1, 0, _, ps => .ok ([], ps)
  | f + 1, n + 1, slots, ps => do
    let v ← parseItem env f ps
    if slots = 0 then .ub
    else do
      let r ← parseItems env f n (slots - 1) v.2
      pure (v.1 :: r.1, r.2)
end

/-- `Value::parseBinary` with `fuel`. -/
def parseBinary (env : Env) (fuel : Nat) (s : Bytes) : Res (BV × PS) := parseItem env fuel ⟨s, [], 0⟩

/-- `Value::serializeBinary`. -/
def serializeBinary (fl : Flags) (env : Env) (v : BV) : Res Bytes := do
  let r ← ser fl env SS.init v
  pure r.1

end Imt.BinJson
