import Verif.Model.JwtSign
/-!
# Preferred methods, containers of keys, import and export of keys (`jwt.cpp`, `jwtcrypto.h`)

OpenSSL is a parameter.
-/
namespace Imt.Jwt
open Imt

/-- `getPreferredMethod` of `JWTCrypto_RS`, `JWTCrypto_HS` and `JWTCrypto_ES` (jwtcrypto.h:174-181, 210-217, 251-258), where `fam` is
RS, HS or ES. -/
def preferredOf (fam : Bytes) (size : Nat) (kid : Bytes) : Method :=
  ⟨fam ++ (if size = 384 then ascii "384" else if size = 512 then ascii "512" else ascii "256"), kid⟩

/-- `JWTCryptoContainer` (jwt.h:72-95): the vector (sorted by the constructor, jwt.cpp:161-163), the preferred method, and the objects
behind the pointers. The preferred method consists of views; the texts are assumed to outlive the container. -/
structure Container where
  items : List Item
  preferred : Method
  objs : Nat → Crypto

/-- `JWTCryptoContainer::getPreferredMethod` (jwt.cpp:123-131). -/
def Container.preferredMethod (c : Container) (kid : Bytes) : Res Method :=
  if kid = [] then .ok c.preferred
  else do
    match ← select c.items kid with
    | none => pure c.preferred
    | some (alg, _) => pure ⟨alg, kid⟩

/-- `JWTCryptoContainer::sign`, `verify` (jwt.cpp:133-146). -/
def Container.crypto (c : Container) : Crypto where
  sign msg m := do
    match ← select c.items m.kid with
    | none => pure []
    | some (_, i) => (c.objs i).sign msg m
  verify msg m s := do
    match ← select c.items m.kid with
    | none => pure false
    | some (_, i) => (c.objs i).verify msg m s

/-- `serializeJWT(payload, crypto, kid)` (jwt.cpp:63-66), also `serializeJWT(payload, crypto)` with the empty key id (jwt.cpp:58-61). -/
def serializePreferred (f : Decimal → Bytes) (payload : JV) (c : Crypto) (pref : Bytes → Res Method) (kid : Bytes) : Res Bytes := do
  let m ← pref kid
  serializeJWT f payload c m

/-! ### Keys -/

/-- `EC_KEY`: the curve by its size, the private number, the public point, and the form in which the point is written. Points
are opaque. Keys without a public point are left out. -/
structure EKey where
  curve : Nat
  priv : Option Nat
  pub : Nat
  compressed : Bool
deriving Repr, DecidableEq

/-- Functions of OpenSSL. `mul` is `EC_POINT_mul` with the generator (`none` – failed), `i2o` and `o2i` are `i2o_ECPublicKey` and
`o2i_ECPublicKey` (`none` – failed; the form is remembered in the key), `pem` is `PEM_write_bio_EC_PUBKEY`. -/
structure Ossl where
  mul : Nat → Nat → Option Nat
  i2o : Nat → Bool → Nat → Bytes
  o2i : Nat → Bytes → Option (Nat × Bool)
  pem : EKey → Bytes

/-- Objects of OpenSSL that are allocated. -/
inductive Alloc where
  | number | point | key
deriving Repr, DecidableEq

/-- `initKey` (jwtcrypto.h:296-303): the curve of the key; `none` – null pointer. -/
def initKey (size : Nat) : Option Nat := if size = 256 ∨ size = 384 ∨ size = 512 then some size else none

/-- `importPublicKey` (jwtcrypto.h:312-331): the key returned (`none` – null pointer) and the objects that nobody owns afterwards.
`o2i_ECPublicKey` fails on a null pointer and returns the key it was given. -/
def importPublic (o : Ossl) (size : Nat) (text : Bytes) : Res (Option EKey × List Alloc) := do
  let b ← Base64.decodeUrl text
  match initKey size with
  | none => pure (none, [])
  | some c =>
    match o.o2i c b with
    | none => pure (none, [])
    | some (p, f) => pure (some ⟨c, none, p, f⟩, [])

/-- `importPrivateKey(size, bytes)` (jwtcrypto.h:334-351). `EC_KEY_set_private_key` and `EC_KEY_set_public_key` store copies (OpenSSL); the
originals have been released from their owners (lines 347, 348). The group of a null key is read through a null pointer. Allocations
are assumed to succeed. -/
def importPrivate (o : Ossl) (size : Nat) (b : Bytes) : Res (Option EKey × List Alloc) :=
  match initKey size with
  | none => .ub
  | some c =>
    match o.mul c (bin2bn b) with
    | none => .ok (none, [])
    | some p => .ok (some ⟨c, some (bin2bn b), p, false⟩, [.number, .point])

/-- `importPrivateKey(size, text)` (jwtcrypto.h:353-361). -/
def importPrivateText (o : Ossl) (size : Nat) (text : Bytes) : Res (Option EKey × List Alloc) := do
  let b ← Base64.decodeUrl text
  if b = [] then pure (none, []) else importPrivate o size b

/-- `exportPublicKey` (jwtcrypto.h:363-374): the text, and the key with the form changed. -/
def exportPublic (o : Ossl) (k : EKey) : Res (Bytes × EKey) := do
  let k := { k with compressed := true }
  let t ← Base64.encodeUrl (o.i2o k.curve k.compressed k.pub)
  pure (t, k)

/-- `exportPublicKeyPEM` (jwtcrypto.h:375-384). -/
def exportPublicPEM (o : Ossl) (k : EKey) : Bytes := o.pem k

end Imt.Jwt
