import Verif.Model.Jwt
/-!
# Signatures of JSON web tokens with RSA and elliptic curves (`jwtcrypto.h`)

OpenSSL is a parameter; assumed of it: `BN_bn2binpad` writes the number in the given count of bytes and returns the count, or
writes nothing and returns -1 if the number does not fit; `BN_bin2bn` is the inverse for any count of bytes.
-/
namespace Imt.Jwt
open Imt

/-- `BN_bin2bn`: big endian. -/
def bin2bn (b : Bytes) : Nat := b.foldl (fun a x => a * 256 + x) 0

/-- The last `len` bytes of a number, big endian. -/
def toBytes (v : Nat) : Nat → Bytes
  | 0 => []
  | len + 1 => toBytes (v / 256) len ++ [v % 256]

/-- `BN_bn2binpad`; `none` – result -1. -/
def bn2binpad (v len : Nat) : Option Bytes := if v < 256 ^ len then some (toBytes v len) else none

/-- `storeESSign` (jwtcrypto.h:105-113) and `getBinary` (jwtcrypto.h:29). The results of `BN_bn2binpad` are added to the pointer unchecked:
if the first number does not fit, the pointer leaves the buffer (undefined behaviour); if the second one does not, the last byte of
the first number is cut off. A null signature is dereferenced. -/
def storeES (sig : Option (Nat × Nat)) (len : Nat) : Res Bytes :=
  match sig with
  | none => .ub
  | some (r, s) =>
    match bn2binpad r len with
    | none => .ub
    | some br =>
      match bn2binpad s len with
      | some bs => .ok (br ++ bs)
      | none => .ok (br.take (len - 1))

/-- `parseESSign` (jwtcrypto.h:115-124): halves of the signature as numbers. -/
def parseES (signature : Bytes) : Nat × Nat :=
  (bin2bn (signature.take (signature.length / 2)), bin2bn (signature.drop (signature.length / 2)))

/-- `ECDSA_do_sign` and `ECDSA_do_verify` with the digest functions of the three algorithms (256, 384, 512) and a key. Signing is
randomised: the second argument counts the attempts. -/
structure Ecdsa where
  sign : Nat → Nat → Bytes → Option (Nat × Nat)
  verify : Nat → Bytes → Nat × Nat → Bool

/-- `verifyES256`, `verifyES384`, `verifyES512` (jwtcrypto.h:126-143). -/
def verifyES (k : Ecdsa) (alg : Nat) (msg signature : Bytes) : Bool := k.verify alg msg (parseES signature)

/-- `signES256`, `signES384`, `signES512` (jwtcrypto.h:144-166). -/
def signES (k : Ecdsa) (alg attempt : Nat) (msg : Bytes) : Res Bytes := storeES (k.sign alg attempt msg) (alg / 8)

/-- `signAndCheck` (jwtcrypto.h:261-271): 99 attempts, then an exception. -/
def signAndCheck (k : Ecdsa) (alg : Nat) (msg : Bytes) : (i : Nat) → (left : Nat) → Res Bytes
  | _, 0 => .err
  | i, left + 1 => do
    let r ← signES k alg i msg
    if verifyES k alg msg r then pure r else signAndCheck k alg msg (i + 1) left

/-- `JWTCrypto_ES` (jwtcrypto.h:241-285): the algorithm must be the one of the size given to the constructor. -/
def es (k : Ecdsa) (size : Nat) : Crypto where
  sign msg m :=
    if m.alg = ascii "ES256" ∧ size = 256 then signAndCheck k 256 msg 1 99
    else if m.alg = ascii "ES384" ∧ size = 384 then signAndCheck k 384 msg 1 99
    else if m.alg = ascii "ES512" ∧ size = 512 then signAndCheck k 512 msg 1 99
    else .ok []
  verify msg m s :=
    if m.alg = ascii "ES256" ∧ size = 256 then .ok (verifyES k 256 msg s)
    else if m.alg = ascii "ES384" ∧ size = 384 then .ok (verifyES k 384 msg s)
    else if m.alg = ascii "ES512" ∧ size = 512 then .ok (verifyES k 512 msg s)
    else .ok false

/-- `RSA_sign` (`none` – failed, nothing written) and `RSA_verify` with the digest functions of the three algorithms and a key. -/
structure Rsa where
  sign : Nat → Bytes → Option Bytes
  verify : Nat → Bytes → Bytes → Bool

/-- `signRS256`, `signRS384`, `signRS512` (jwtcrypto.h:50-70): the result of `RSA_sign` is ignored; `stack` is what the buffer of
1024 bytes contained before. A longer signature is written behind the buffer. -/
def signRS (stack : Bytes) (k : Rsa) (alg : Nat) (msg : Bytes) : Res Bytes :=
  match k.sign alg msg with
  | none => .ok stack
  | some s => if s.length ≤ 1024 then .ok s else .ub

/-- `JWTCrypto_RS` (jwtcrypto.h:170-204). -/
def rs (stack : Bytes) (k : Rsa) : Crypto where
  sign msg m :=
    if m.alg = ascii "RS256" then signRS stack k 256 msg
    else if m.alg = ascii "RS384" then signRS stack k 384 msg
    else if m.alg = ascii "RS512" then signRS stack k 512 msg
    else .ok []
  verify msg m s :=
    if m.alg = ascii "RS256" then .ok (k.verify 256 msg s)
    else if m.alg = ascii "RS384" then .ok (k.verify 384 msg s)
    else if m.alg = ascii "RS512" then .ok (k.verify 512 msg s)
    else .ok false

/-- The key as `HMAC` gets it: its length is converted to `int` (jwtcrypto.h:73, 78, 83, 88, 93, 98); a negative length makes
`HMAC` fail (OpenSSL 1.1.1, `HMAC_Init_ex`). -/
def hmacKey (key : Bytes) : Option Bytes :=
  if key.length % 2 ^ 32 < 2 ^ 31 then some (key.take (key.length % 2 ^ 32)) else none

/-- `HMAC` called by `signHS256` … `verifyHS512` (jwtcrypto.h:71-100) and the buffer after it: the result of `HMAC` is not looked at;
`hmac` is `none` when it fails (nothing is written then), `stack` is what the buffer of 1024 bytes contained before. -/
def hsBuffer (stack : Bytes) (hmac : Nat → Bytes → Bytes → Option Bytes) (alg : Nat) (key msg : Bytes) : Bytes :=
  (((hmacKey key).bind fun k => hmac alg k msg)).getD stack

/-- `JWTCrypto_HS` (jwtcrypto.h:206-238) over a `HMAC` that may fail; compare `hs`. -/
def hsF (stack : Bytes) (hmac : Nat → Bytes → Bytes → Option Bytes) (key : Bytes) : Crypto where
  sign msg m :=
    if m.alg = ascii "HS256" then .ok (hsBuffer stack hmac 256 key msg)
    else if m.alg = ascii "HS384" then .ok (hsBuffer stack hmac 384 key msg)
    else if m.alg = ascii "HS512" then .ok (hsBuffer stack hmac 512 key msg)
    else .ok []
  verify msg m s :=
    if m.alg = ascii "HS256" then .ok (s == hsBuffer stack hmac 256 key msg)
    else if m.alg = ascii "HS384" then .ok (s == hsBuffer stack hmac 384 key msg)
    else if m.alg = ascii "HS512" then .ok (s == hsBuffer stack hmac 512 key msg)
    else .ok false

end Imt.Jwt
