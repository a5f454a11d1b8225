import Verif.Model.Base64
import Verif.Model.BinEnc
import Verif.Model.Serializer
/-!
# Binary strings (`binary.cpp`, `binary.h`, `stringValue.cpp`, `wrap.h`, `key.h`)

A `StringValue` may remember a binary encoding; such a value is printed through that encoding.
-/
namespace Imt.Binary
open Imt

/-- The five encoders of the library: `Base64Encoding`, `Base64EncodingUrl` (base64.cpp:52-136), `UrlEncoding`,
`UTF8Encoding`, `DirectEncoding` (binary.cpp:33-162). -/
inductive Coder where
  | base64 | base64url | url | utf8 | direct
deriving Repr, DecidableEq

/-- A string node. `str` is a `StringValue` without an encoding or the shared empty string (stringValue.cpp:96-99), `bin`
one with an encoding (stringValue.cpp:107-111), `keyed` an `ObjectProxy`/`ObjectProxyString` (key.h:46-71), `wrap` an
`ObjWrap` made by `makeValue` (wrap.h:19-63). Keys, wrapped objects and reference counts are left out. -/
inductive Node where
  | str (s : Bytes)
  | bin (e : Coder) (d : Bytes)
  | keyed (v : Node)
  | wrap (v : Node)
deriving Repr, DecidableEq

/-- `flags() & binaryString` (stringValue.h:23; forwarded by key.h:23 and wrap.h:26). -/
def Node.isBin : Node → Bool
  | .str _ => false
  | .bin _ _ => true
  | .keyed v => v.isBin
  | .wrap v => v.isBin

/-- `getString` (key.h:31, wrap.h:34 forward). -/
def Node.getString : Node → Bytes
  | .str s => s
  | .bin _ d => d
  | .keyed v => v.getString
  | .wrap v => v.getString

/-- `unproxy` (abstractValue.h:29, key.h:37, wrap.h:43: a wrapper is its own end). -/
def Node.unproxy : Node → Node
  | .keyed v => v.unproxy
  | v => v

/-- `makeValue` (wrap.h:118-122). -/
def makeValue (v : Node) : Node := .wrap v.unproxy

/-- `StringValue::getEncoding` (stringValue.cpp:113-120): the `static_cast` to `StringValue` is undefined for an object
of another class. -/
def getEncoding (v : Node) : Res Coder :=
  if v.isBin then
    match v with
    | .bin e _ => .ok e
    | _ => .ub
  else .ok .direct

/-- `decodeBinaryValue` of an encoder: base64.cpp:52-70, base64.cpp:124-133 (which labels its result `base64`),
binary.cpp:66-92, binary.cpp:120-130, binary.cpp:37-39. -/
def Coder.decode : Coder → Bytes → Res Node
  | .base64, t => if t.length &&& 3 ≠ 0 ∨ t.length = 0 then .ok (.str []) else do
      let d ← Base64.decode64 t
      pure (.bin .base64 d)
  | .base64url, t => do
      let d ← Base64.decodeUrl t
      pure (.bin .base64 d)
  | .url, t => do
      let d ← BinEnc.urlDecode t
      pure (.bin .url d)
  | .utf8, t => do
      let d ← BinEnc.utf8Decode t
      pure (.bin .utf8 d)
  | .direct, t => .ok (.str t)

/-- `Binary::decodeBinaryValue` (binary.cpp:22-31), also `Value::getBinary` (value.cpp:349-351). The result is the value
held by the `Binary` (binary.h:60-67). -/
def getBinary (v : Node) (e : Coder) : Res Node :=
  if v.getString = [] then .ok (.str [])
  else if v.isBin = false then e.decode v.getString
  else .ok v

/-- The loop of `encodeCore` (base64.cpp:87-108) with the chunks passed to `fn`: each step starts with nothing passed,
so what it adds to `out` is the chunk. -/
def chunkLoop (chars : Bytes) : Nat → Base64.Enc → Bytes → Res (List Bytes × Nat × Base64.Enc)
  | rdpos, e, [] => .ok ([], rdpos, e)
  | rdpos, e, c :: cs => do
    let e ← Base64.encStep chars rdpos ⟨[], e.buf, e.nx⟩ c
    let r ← chunkLoop chars (rdpos + 1) e cs
    pure ((if e.out = [] then [] else [e.out]) ++ r.1, r.2)

/-- `encodeCore` (base64.cpp:78-119): the chunks passed to `fn`. -/
def chunks64 (chars : Bytes) (tail : Bool) (data : Bytes) : Res (List Bytes) :=
  if data.length = 0 then .ok [] else do
    let nlen := (data.length + 2) / 3
    let padd := nlen * 3 - data.length
    let r ← chunkLoop chars 0 ⟨[], [], 0⟩ data
    let e ← (if r.2.1 % 3 ≠ 0 then do
        let ch ← Base64.lookup chars r.2.2.nx
        r.2.2.put ch
      else pure r.2.2)
    let e ← (if tail then Base64.putPad padd e else pure e)
    pure (r.1 ++ [e.buf])

/-- The buffer of `UTF8Encoding::encodeBinaryValue` (binary.cpp:133-142): `fn` gets every full 256 bytes and the rest. -/
def chunks256 : Bytes → Bytes → List Bytes
  | buf, [] => if buf = [] then [] else [buf]
  | buf, c :: cs => if buf.length + 1 = 256 then (buf ++ [c]) :: chunks256 [] cs else chunks256 (buf ++ [c]) cs

/-- `encodeBinaryValue(binary, fn)` of an encoder: the pieces passed to `fn` (base64.cpp:71-76,134-136,
binary.cpp:93-104, binary.cpp:131-143, binary.cpp:40-42). -/
def Coder.chunks : Coder → Bytes → Res (List Bytes)
  | .base64, d => chunks64 Base64.chars64 true d
  | .base64url, d => chunks64 Base64.charsUrl false d
  | .url, d => .ok (d.map BinEnc.urlEncByte)
  | .utf8, d => .ok (chunks256 [] (Utf8.encode d))
  | .direct, d => .ok [d]

/-- `encodeBinaryValue(binary)`: the generic one collects the chunks in a stream (binary.cpp:110-114); the one of
`UTF8Encoding` converts the whole at once (binary.cpp:144-153). -/
def Coder.encode : Coder → Bytes → Res Bytes
  | .utf8, d => .ok (BinEnc.utf8Encode d)
  | e, d => do
    let l ← e.chunks d
    pure l.flatten

/-- `Serializer::serializeString` (serializer.h:164-176): each chunk goes through its own `writeStringBody`. -/
def serializeString (utf8 : Bool) (v : Node) : Res Bytes :=
  if v.isBin then do
    let enc ← getEncoding v.unproxy
    let l ← enc.chunks v.getString
    pure (0x22 :: (l.flatMap (Ser.body utf8 Utf8.Dec.init) ++ [0x22]))
  else .ok (Ser.writeString utf8 v.getString)

/-- `Value::toString` of a string (value.cpp:74-80). -/
def valueToString (v : Node) : Res Bytes :=
  if v.isBin then do
    let enc ← getEncoding v.unproxy
    let b ← getBinary v enc
    enc.encode b.getString
  else .ok v.getString

/-- `Binary::getEncoding` (binary.cpp:14-16) of the `Binary` obtained from a value: `s` is the handle of the value as it
is, no `unproxy` (binary.h:60). -/
def binaryEncoding (v : Node) : Res Coder := getEncoding v

/-- The string side of a parsed value: `getString` of anything but a string or a precise number is empty
(abstractValue.h, stringValue.cpp:33-35, 224-227), and a parsed value has no encoding. -/
def ofParsed : JV → Node
  | .str s => .str s
  | .num (.prec t _) => .str t
  | _ => .str []

end Imt.Binary
