import Verif.Model.Base64
import Verif.Model.Parser
import Verif.Model.Serializer
import Verif.Model.ObjB
/-!
# JSON web tokens (`jwt.cpp`, parts of `jwtcrypto.h`)

`StrViewA::split` and `StrViewA::substr` belong to the absent submodule; assumed: `split` delivers the parts between
separators, then empty parts positioned at the end; `substr` clamps the position to the length.
Pseudo-random or key material does not occur: the cryptography is a parameter.
-/
namespace Imt.Jwt
open Imt Imt.Obj

/-- `AbstractJWTCrypto::SignMethod` (jwt.h:26-31). -/
structure Method where
  alg : Bytes
  kid : Bytes
deriving Repr, DecidableEq

/-- `AbstractJWTCrypto` (jwt.h:20-60): any object with these functions. They may throw (`.err`). -/
structure Crypto where
  sign : Bytes → Method → Res Bytes
  verify : Bytes → Method → Bytes → Res Bool

/-- One call of the split function: start and length of the part, position for the next call. -/
def nextPart (s : Bytes) (pos : Nat) : Nat × Nat × Nat :=
  let len := ((s.drop pos).takeWhile (· != 0x2E)).length
  (pos, len, if pos + len < s.length then pos + len + 1 else s.length)

/-- `StrViewA(data + start, len)`. -/
def sub (s : Bytes) (start len : Nat) : Bytes := (s.drop start).take len

/-- `catch (...) { return undefined; }` (jwt.cpp:43-45, 53-55). -/
def catchAll : Res JV → Res JV
  | .err => .ok .undef
  | r => r

/-- `hdr[name].getString()` (jwt.cpp:38-39): the empty string unless `hdr` is an object with a string under that name
(value.cpp:22-33, abstractValue.h:19-20; objects.cpp lookups, see `Model/ObjCore`). Keys and strings only: a header is
parsed in the default mode, so it contains no precise numbers, whose `getString` is not empty. -/
def memberStr (hdr : JV) (name : Bytes) : Bytes :=
  match hdr with
  | .obj l => match Obj.member l name with
    | some (.str s) => s
    | _ => []
  | _ => []

/-- `parseJWT` (jwt.cpp:19-46). `tl` is the floating point test of the parser (see `Model/Parser`). `getBinary(base64url)` of a
string value that was decoded with that encoding are its bytes (binary.cpp). -/
def parseJWT (tl : Nat → Bool) (token : Bytes) (crypto : Option Crypto) (force : Option Method) : Res JV :=
  catchAll do
    let (p1, l1, n1) := nextPart token 0
    let (p2, l2, n2) := nextPart token n1
    let (p3, l3, _) := nextPart token n2
    let sheader := sub token p1 l1
    let sbody := sub token p2 l2
    let ssign := sub token p3 l3
    let headerBody := sub token p1 ((p2 - p1) + l2)
    match crypto, force with
    | some c, some m => do
      let sign ← Base64.decodeUrl ssign
      let ok ← c.verify headerBody m sign
      if !ok then pure .undef
      else do
        let b ← Base64.decodeUrl sbody
        Parser.fromString tl b
    | some c, none => do
      let b ← Base64.decodeUrl sbody
      let body ← Parser.fromString tl b
      let sign ← Base64.decodeUrl ssign
      let h ← Base64.decodeUrl sheader
      let hdr ← Parser.fromString tl h
      let ok ← c.verify headerBody ⟨memberStr hdr (ascii "alg"), memberStr hdr (ascii "kid")⟩ sign
      if !ok then pure .undef else pure body
    | none, _ => do
      let b ← Base64.decodeUrl sbody
      Parser.fromString tl b

/-- `parseJWTHdr` (jwt.cpp:48-56). -/
def parseJWTHdr (tl : Nat → Bool) (token : Bytes) : Res JV :=
  catchAll do
    let (p1, l1, _) := nextPart token 0
    let h ← Base64.decodeUrl (sub token p1 l1)
    Parser.fromString tl h

/-- `serializeJWT(header, payload, crypto, method)` (jwt.cpp:92-108). `f` prints doubles (see `Model/Serializer`); `stringify()` uses
the default format, escaped (value.cpp, `defaultUnicodeFormat`). -/
def serializeRaw (f : Decimal → Bytes) (header payload : JV) (c : Crypto) (m : Method) : Res Bytes := do
  let h ← Ser.stringify false f header
  let b ← Ser.stringify false f payload
  let eh ← Base64.encodeUrl h
  let eb ← Base64.encodeUrl b
  let buffer := eh ++ [0x2E] ++ eb
  let sign ← c.sign buffer m
  let es ← Base64.encodeUrl sign
  pure (buffer ++ [0x2E] ++ es)

/-- Header made by `serializeJWT(payload, crypto, method)` (jwt.cpp:69-71): `Value()` is undefined, so an empty key id is not written. -/
def header (m : Method) : JV :=
  .obj (ObjB.commit ObjB.defd (ObjB.record ObjB.defd ObjB.new
    [(ascii "alg", .str m.alg), (ascii "kid", if m.kid = [] then .undef else .str m.kid)])).1

/-- `serializeJWT(payload, crypto, method)` (jwt.cpp:68-73). -/
def serializeJWT (f : Decimal → Bytes) (payload : JV) (c : Crypto) (m : Method) : Res Bytes :=
  serializeRaw f (header m) payload c m

/-- `JWTCrypto_HS` (jwtcrypto.h:206-238): the HMAC of the three sizes is a parameter. `SignBuffer::check` (jwtcrypto.h:30-32) compares
the whole signature. -/
def hs (hmac : Nat → Bytes → Bytes → Bytes) (key : Bytes) : Crypto where
  sign msg m :=
    if m.alg = ascii "HS256" then .ok (hmac 256 key msg)
    else if m.alg = ascii "HS384" then .ok (hmac 384 key msg)
    else if m.alg = ascii "HS512" then .ok (hmac 512 key msg)
    else .ok []
  verify msg m s :=
    if m.alg = ascii "HS256" then .ok (s == hmac 256 key msg)
    else if m.alg = ascii "HS384" then .ok (s == hmac 384 key msg)
    else if m.alg = ascii "HS512" then .ok (s == hmac 512 key msg)
    else .ok false

/-! ### Time -/

/-- `getUIntLong` of a number (basicValues.h:93-124): integers modulo 2^64; `conv` is the conversion of doubles and other kinds (undefined
outside of the range of the type). -/
def toU64 (conv : JNum → Res Nat) : JNum → Res Nat
  | .uint n => .ok n
  | .int i => .ok (i % 2 ^ 64).toNat
  | n => conv n

/-- `value[name]` for objects (jwt.cpp:81-82), undefined otherwise. -/
def member (v : JV) (name : Bytes) : JV :=
  match v with
  | .obj l => (Obj.member l name).getD .undef
  | _ => .undef

/-- `if (x.type() == number) { if (x.getUIntLong() ? tse) ...}` (jwt.cpp:83-88): whether the test applies. -/
def numTest (conv : JNum → Res Nat) (m : JV) (p : Nat → Bool) : Res Bool :=
  match m with
  | .num n => do let e ← toU64 conv n; pure (p e)
  | _ => pure false

/-- `checkJWTTime(value, tp)` (jwt.cpp:79-90); `now` is the time in seconds since the epoch. -/
def checkJWTTime (conv : JNum → Res Nat) (v : JV) (now : Int) : Res JV := do
  let tse := (now % 2 ^ 64).toNat
  let expired ← numTest conv (member v (ascii "exp")) (fun e => decide (e < tse))
  if expired then pure .undef
  else do
    let early ← numTest conv (member v (ascii "nbf")) (fun e => decide (e > tse))
    if early then pure .undef else pure v

/-! ### Cache -/

/-- `JWTTokenCache` (jwt.h:175-213): two hash maps, here association lists with distinct tokens. -/
structure Cache where
  c1 : List (Bytes × JV)
  c2 : List (Bytes × JV)
  limit : Nat
deriving Repr, DecidableEq

/-- `JWTTokenCache::JWTTokenCache` (jwt.cpp:167-170). -/
def Cache.mk' (limit : Nat) : Cache := ⟨[], [], limit⟩

/-- `JWTTokenCache::Hash` (jwt.cpp:197-204): the last ten characters are decoded to eight bytes. `token.length - hlen` wraps for shorter
tokens; the tail is then empty and the number is read from uninitialised memory. Which number it is does not matter otherwise. -/
def hashOk (token : Bytes) : Bool := decide (10 ≤ token.length)

/-- `unordered_map::find`. -/
def find (l : List (Bytes × JV)) (t : Bytes) : Option JV := (l.find? (fun e => e.1 == t)).map (·.2)

/-- `JWTTokenCache::get` (jwt.cpp:172-181); `none` is `Value()`. The comparison of an iterator of `cache2` with `cache1.end()` works with
the usual library, where all end iterators are null. -/
def Cache.get (c : Cache) (t : Bytes) : Res (Option JV) :=
  if hashOk t then .ok ((find c.c1 t).or (find c.c2 t)) else .ub

/-- `JWTTokenCache::store` (jwt.cpp:183-190): `emplace` keeps an existing element. -/
def Cache.store (c : Cache) (t : Bytes) (v : JV) : Res Cache :=
  if hashOk t then
    let c1 := if (find c.c1 t).isSome then c.c1 else (t, v) :: c.c1
    if c1.length ≥ c.limit then .ok { c with c1 := [], c2 := c1 } else .ok { c with c1 := c1 }
  else .ub

/-- `JWTTokenCache::clear` (jwt.cpp:192-195). -/
def Cache.clear (c : Cache) : Cache := { c with c1 := [], c2 := [] }

/-! ### Container of keys -/

/-- Item of `JWTCryptoContainer` (jwt.h:75): key id and pointer (null, or the preferred algorithm of the object and the object). -/
structure Item where
  kid : Bytes
  obj : Option (Bytes × Nat)
deriving Repr, DecidableEq

/-- `JWTCryptoContainer::isLess` (jwt.cpp:152-159). -/
def isLess (a b : Item) : Bool :=
  match cmpBytes a.kid b.kid with
  | .lt => true
  | .gt => false
  | .eq =>
    match a.obj, b.obj with
    | none, none => false
    | none, some _ => true
    | some _, none => false
    | some (x, i), some (y, j) => if i = j then false else cmpBytes x y == .lt

/-- Selection in `sign` and `verify` (jwt.cpp:133-146): `lower_bound` in the sorted vector; `none` – no such key. A null pointer would be
dereferenced. -/
def select (m : List Item) (kid : Bytes) : Res (Option (Bytes × Nat)) :=
  match m.find? (fun i => !isLess i ⟨kid, none⟩) with
  | none => .ok none
  | some i => if i.kid = kid then (match i.obj with | some o => .ok (some o) | none => .ub) else .ok none

end Imt.Jwt
