import Verif.Model.ValidText
import Verif.Model.BinJson
/-!
# Classification functions with the arguments they are really given

The other models use the classes of the C locale with no class for bytes from 0x80. Here the functions of `<ctype.h>`
are those of the C standard: the argument has to be `EOF` or a value of `unsigned char`, anything else is undefined.
The callers pass a `char`, which is signed on the modelled platform.
-/
namespace Imt.Ctype
open Imt Imt.VText

/-- The value of a `char` that holds the byte `c`, promoted to `int`. -/
def charVal (c : Nat) : Int := if c ≥ 128 then (c : Int) - 256 else c

/-- A function of `<ctype.h>` for the class `p` (C11 7.4 paragraph 1); `EOF` is -1 and in no class. -/
def std (p : Nat → Bool) (i : Int) : Res Bool :=
  if i = -1 then .ok false else if i < 0 ∨ 255 < i then .ub else .ok (p i.toNat)

/-- The loops `if (!isclass(c) && c != x && c != y) return false` (validator.cpp:145-147, 158-161, 170-173, 198-200,
207-209, 216-218, binjson.tcc:115-118). `extra` are the comparisons after the call. -/
def loop (p extra : Nat → Bool) : Bytes → Res Bool
  | [] => .ok true
  | c :: t => do
    let b ← std p (charVal c)
    if !b && !extra c then pure false else loop p extra t

/-- No comparison follows the call. -/
def noExtra (_ : Nat) : Bool := false

/-- `opHex` (validator.cpp:142-149). -/
def opHex (s : Bytes) : Res Bool := if s = [] then .ok false else loop isxdigit noExtra s
/-- `opAlpha` (validator.cpp:195-202). -/
def opAlpha (s : Bytes) : Res Bool := if s = [] then .ok false else loop isalpha noExtra s
/-- `opAlnum` (validator.cpp:204-211). -/
def opAlnum (s : Bytes) : Res Bool := if s = [] then .ok false else loop isalnum noExtra s
/-- `opDigits` (validator.cpp:213-220). -/
def opDigits (s : Bytes) : Res Bool := if s = [] then .ok false else loop isdigit noExtra s

/-- `opBase64` (validator.cpp:151-163). -/
def opBase64 (s : Bytes) : Res Bool :=
  if s = [] then .ok false
  else if s.length % 4 ≠ 0 then .ok false
  else loop isalnum (fun c => c == 47 || c == 43) (s.take (dropEq s (dropEq s s.length)))

/-- `opBase64url` (validator.cpp:165-175). -/
def opBase64url (s : Bytes) : Res Bool :=
  if s = [] then .ok false
  else if s.length % 4 = 1 then .ok false
  else loop isalnum (fun c => c == 45 || c == 95) s

/-- `!isalnum(c) || (i == 0 && !isalpha(c))` (validator.cpp:236): `isalpha` is asked for the first character only, when
`isalnum` said yes. -/
def identNo (first : Bool) (c : Nat) : Res Bool := do
  let b ← std isalnum (charVal c)
  if !b then pure true
  else if first then do
    let a ← std isalpha (charVal c)
    pure !a
  else pure false

/-- The loop of `opIsIdentifier` (validator.cpp:234-237). -/
def identLoop : Bool → Bytes → Res Bool
  | _, [] => .ok true
  | first, c :: t => do
    let no ← identNo first c
    if no && c != 95 then pure false else identLoop false t

/-- `opIsIdentifier` (validator.cpp:232-239). -/
def opIsIdentifier (s : Bytes) : Res Bool := identLoop true s

/-- `canCompressString` (binjson.tcc:113-120). -/
def canCompress (s : Bytes) : Res Bool :=
  if s.length ≤ 4 then .ok false else loop isalnum (fun c => c == 95 || c == 45) s

/-- One turn of the loop of `checkDateTimeGen` (validator.cpp:267-291): the fields of the format ask `isdigit`, the
other characters are compared. -/
def dateStep (st : DT) (c d : Nat) : Res (Option DT) :=
  if c = 68 ∨ c = 77 ∨ c = 89 ∨ c = 104 ∨ c = 109 ∨ c = 115 ∨ c = 99 ∨ c = 79 ∨ c = 111 then do
    let b ← std isdigit (charVal d)
    if !b then pure none else pure (VText.dateStep st c d)
  else .ok (VText.dateStep st c d)

/-- The loop (validator.cpp:267-291). -/
def dateLoop : DT → Bytes → Bytes → Res (Option DT)
  | st, c :: f, d :: t => do
    match ← dateStep st c d with
    | none => pure none
    | some st => dateLoop st f t
  | st, _, _ => .ok (some st)

/-- `checkDateTimeGen` (validator.cpp:252-307). -/
def checkDateTimeGen (format text : Bytes) : Res Bool :=
  if format.length ≠ text.length then .ok false
  else do
    match ← dateLoop {} format text with
    | none => pure false
    | some st => pure (dateFinal st)

end Imt.Ctype
