import Verif.Model.Base
/-!
# Base64 and Base64url (`base64.cpp`)
-/
namespace Imt.Base64
open Imt

/-- `Base64Table::base64chars` (base64.cpp:13-16). -/
def chars64 : Bytes := ascii "ABCDEFGHIJKLMNOPQRSTUVWXYZabcdefghijklmnopqrstuvwxyz0123456789+/"
/-- `Base64Table::base64urlchars` (base64.cpp:17-20). -/
def charsUrl : Bytes := ascii "ABCDEFGHIJKLMNOPQRSTUVWXYZabcdefghijklmnopqrstuvwxyz0123456789-_"

/-- `Base64Table::Base64Table` (base64.cpp:8-11): 256 entries 0xFF, then `table[chars[i]] = i`. -/
def mkTable (chars : Bytes) : List Nat :=
  (List.range 64).foldl (fun t i => t.set (chars.getD i 0) i) (List.replicate 256 0xFF)

/-- State of the loop of `encodeCore`: chunks already passed to `fn` (concatenated), content of `buff[0..wrpos)`,
and `nx`. -/
structure Enc where
  out : Bytes
  buf : Bytes
  nx : Nat
deriving Repr, DecidableEq

/-- `buff[wrpos++] = ch` with `char buff[256]` (base64.cpp:83): writing past the end is undefined. -/
def Enc.put (e : Enc) (ch : Nat) : Res Enc :=
  if e.buf.length < 256 then .ok { e with buf := e.buf ++ [ch] } else .ub

/-- `chars[i]`; the character table has 64 entries (plus terminator), other indices are undefined. -/
def lookup (chars : Bytes) (i : Nat) : Res Nat :=
  match chars[i]? with
  | some c => .ok c
  | none => .ub

/-- `if (wrpos > 250) { fn(...); wrpos = 0; }` (base64.cpp:104-107). -/
def Enc.flush (e : Enc) : Enc := if e.buf.length > 250 then { e with out := e.out ++ e.buf, buf := [] } else e

/-- Body of the loop of `encodeCore` (base64.cpp:88-107); `c` is an `unsigned char`. -/
def encStep (chars : Bytes) (rdpos : Nat) (e : Enc) (c : Nat) : Res Enc := do
  let e ← (match rdpos % 3 with
    | 0 => do
      let ch ← lookup chars (c >>> 2)
      let e ← e.put ch
      pure { e with nx := (c <<< 4) &&& 0x3F }
    | 1 => do
      let ch ← lookup chars (e.nx ||| (c >>> 4))
      let e ← e.put ch
      pure { e with nx := (c <<< 2) &&& 0x3F }
    | _ => do
      let ch ← lookup chars (e.nx ||| (c >>> 6))
      let e ← e.put ch
      let ch ← lookup chars (c &&& 0x3F)
      e.put ch : Res Enc)
  pure e.flush

/-- Loop of `encodeCore` (base64.cpp:87-108). -/
def encLoop (chars : Bytes) : Nat → Enc → Bytes → Res (Nat × Enc)
  | rdpos, e, [] => .ok (rdpos, e)
  | rdpos, e, c :: cs => do
    let e ← encStep chars rdpos e c
    encLoop chars (rdpos + 1) e cs

/-- `for (i = 0; i < padd; i++) buff[wrpos++] = '='` (base64.cpp:113-115). -/
def putPad : Nat → Enc → Res Enc
  | 0, e => .ok e
  | n + 1, e => do
    let e ← e.put 0x3D
    putPad n e

/-- `Base64Encoding::encodeCore` (base64.cpp:78-119), returning the concatenation of everything passed to `fn`. -/
def encodeCore (chars : Bytes) (tail : Bool) (data : Bytes) : Res Bytes :=
  if data.length = 0 then .ok [] else do
    let nlen := (data.length + 2) / 3
    let padd := nlen * 3 - data.length
    let (rdpos, e) ← encLoop chars 0 ⟨[], [], 0⟩ data
    let e ← (if rdpos % 3 ≠ 0 then do
        let ch ← lookup chars e.nx
        e.put ch
      else pure e)
    let e ← (if tail then putPad padd e else pure e)
    pure (e.out ++ e.buf)

/-- Base64Encoding::encodeBinaryValue (base64.cpp:71-76). -/
def encode64 (data : Bytes) : Res Bytes := encodeCore chars64 true data
/-- Base64EncodingUrl::encodeBinaryValue (base64.cpp:134-136). -/
def encodeUrl (data : Bytes) : Res Bytes := encodeCore charsUrl false data

/-- State of `decoderCore`: bytes `bbuf[0..wrpos)` and the partially written `bbuf[wrpos]` (meaningful when
`rdpos & 3 ≠ 0`). -/
structure Dec where
  done : Bytes
  cur : Nat
deriving Repr, DecidableEq

/-- Access to `bbuf[wrpos]`: defined only inside the allocated buffer of `cap` bytes. -/
def Dec.guard (cap : Nat) (d : Dec) : Res Unit := if d.done.length < cap then .ok () else .ub

/-- Body of the loop of `decoderCore` (base64.cpp:34-48): stores to `unsigned char` keep the low eight bits. -/
def decStep (table : List Nat) (cap : Nat) (rdpos : Nat) (d : Dec) (z : Nat) : Res Dec := do
  let b := table.getD z 0xFF
  match rdpos &&& 3 with
  | 0 => do
    d.guard cap
    pure { d with cur := (b <<< 2) % 256 }
  | 1 => do
    d.guard cap
    let d : Dec := ⟨d.done ++ [d.cur ||| (b >>> 4)], (b <<< 4) % 256⟩
    d.guard cap
    pure d
  | 2 => do
    d.guard cap
    let d : Dec := ⟨d.done ++ [d.cur ||| (b >>> 2)], (b <<< 6) % 256⟩
    d.guard cap
    pure d
  | _ => do
    d.guard cap
    pure ⟨d.done ++ [d.cur ||| b], 0⟩

/-- Loop of `decoderCore` (base64.cpp:33-49). -/
def decLoop (table : List Nat) (cap : Nat) : Nat → Dec → Bytes → Res Dec
  | _, d, [] => .ok d
  | rdpos, d, z :: zs => do
    let d ← decStep table cap rdpos d z
    decLoop table cap (rdpos + 1) d zs

/-- Construction of the decoded `StringValue` (stringValue.h:48-57, stringValue.cpp:74-78): `len + 1` bytes allocated,
`finlen` of them become the string. When `finlen` exceeds what was written the tail would be whatever the allocator
left there, modelled as `ub`; when it exceeds `len`, `stringOverflow` aborts. -/
def decodeCommon (table : List Nat) (len finlen : Nat) (str : Bytes) : Res Bytes := do
  let d ← decLoop table (len + 1) 0 ⟨[], 0⟩ (str.take len)
  if finlen > len then .abort
  else if d.done.length < finlen then .ub
  else .ok (d.done.take finlen)

/-- `Base64Encoding::decodeBinaryValue` (base64.cpp:52-70); `String()` is the empty string. -/
def decode64 (str : Bytes) : Res Bytes :=
  let len := str.length
  if len &&& 3 ≠ 0 ∨ len = 0 then .ok []
  else
    let finlen := len * 3 / 4
    let s1 := if str.getD (len - 1) 0 = 0x3D then 1 else 0
    let s2 := if str.getD (len - s1 - 1) 0 = 0x3D then 1 else 0
    decodeCommon (mkTable chars64) (len - s1 - s2) (finlen - s1 - s2) str

/-- `Base64EncodingUrl::decodeBinaryValue` (base64.cpp:124-133). -/
def decodeUrl (str : Bytes) : Res Bytes :=
  decodeCommon (mkTable charsUrl) str.length (str.length * 3 / 4) str

end Imt.Base64
