import Verif.Model.ValueOps
/-!
# Tests of strings in the validator (`validator.cpp`)

The classification functions of `<ctype.h>` are those of the C locale of glibc, where a negative `char` is in no class.
-/
namespace Imt.VText
open Imt Imt.VOps

/-- `isdigit`. -/
def isdigit (c : Nat) : Bool := decide (48 ≤ c) && decide (c ≤ 57)
/-- `c >= 'A' && c <= 'Z'`. -/
def isupper (c : Nat) : Bool := decide (65 ≤ c) && decide (c ≤ 90)
/-- `c >= 'a' && c <= 'z'`. -/
def islower (c : Nat) : Bool := decide (97 ≤ c) && decide (c ≤ 122)
/-- `isalpha`. -/
def isalpha (c : Nat) : Bool := isupper c || islower c
/-- `isalnum`. -/
def isalnum (c : Nat) : Bool := isalpha c || isdigit c
/-- `isxdigit`. -/
def isxdigit (c : Nat) : Bool := isdigit c || (decide (65 ≤ c) && decide (c ≤ 70)) || (decide (97 ≤ c) && decide (c ≤ 102))

/-- The loops that leave with `false` at the first character outside of the class. -/
def allIn (p : Nat → Bool) : Bytes → Bool
  | [] => true
  | c :: t => if !p c then false else allIn p t

/-- `opHex` (validator.cpp:142-149). -/
def opHex (s : Bytes) : Bool := if s = [] then false else allIn isxdigit s
/-- `opUppercase` (validator.cpp:177-184); bytes from 0x80 are negative, below `'A'`. -/
def opUppercase (s : Bytes) : Bool := if s = [] then false else allIn isupper s
/-- `opLowercase` (validator.cpp:186-193). -/
def opLowercase (s : Bytes) : Bool := if s = [] then false else allIn islower s
/-- `opAlpha` (validator.cpp:195-202). -/
def opAlpha (s : Bytes) : Bool := if s = [] then false else allIn isalpha s
/-- `opAlnum` (validator.cpp:204-211). -/
def opAlnum (s : Bytes) : Bool := if s = [] then false else allIn isalnum s
/-- `opDigits` (validator.cpp:213-220). -/
def opDigits (s : Bytes) : Bool := if s = [] then false else allIn isdigit s

/-- `if (str[len - 1] == '=') len--` (validator.cpp:156-157). -/
def dropEq (s : Bytes) (len : Nat) : Nat := if s[len - 1]? = some 61 then len - 1 else len

/-- `opBase64` (validator.cpp:151-163). -/
def opBase64 (s : Bytes) : Bool :=
  if s = [] then false
  else if s.length % 4 ≠ 0 then false
  else allIn (fun c => isalnum c || c == 47 || c == 43) (s.take (dropEq s (dropEq s s.length)))

/-- `opBase64url` (validator.cpp:165-175). -/
def opBase64url (s : Bytes) : Bool :=
  if s = [] then false
  else if s.length % 4 = 1 then false
  else allIn (fun c => isalnum c || c == 45 || c == 95) s

/-- The loop of `opIsIdentifier`; `first` is `i == 0`. -/
def identLoop : Bool → Bytes → Bool
  | _, [] => true
  | first, c :: t => if (!isalnum c || (first && !isalpha c)) && c != 95 then false else identLoop false t

/-- `opIsIdentifier` (validator.cpp:232-239). -/
def opIsIdentifier (s : Bytes) : Bool := identLoop true s

/-! ### Dates -/

/-- Locals of `checkDateTimeGen` (validator.cpp:255-265). -/
structure DT where
  D : Nat := 0
  M : Nat := 0
  Y : Nat := 0
  h : Nat := 0
  m : Nat := 0
  s : Nat := 0
  O : Nat := 0
  o : Nat := 0
  hasD : Bool := false
  hasM : Bool := false
  hasY : Bool := false
deriving Repr, DecidableEq

/-- `(v * 10) + ac` in `unsigned int` for a digit. -/
def acc (v d : Nat) : Nat := (v * 10 + (d - 48)) % 4294967296

/-- One turn of the loop (validator.cpp:267-291) for the format character `c` and the text character `d`; `none` is
`return false`. A field that takes a character other than a digit also ends in `return false`, its value is not
computed here. Field `c` is checked only. -/
def dateStep (st : DT) (c d : Nat) : Option DT :=
  if c = 43 then (if d ≠ 45 ∧ d ≠ 43 then none else some st)
  else if c = 68 ∨ c = 77 ∨ c = 89 ∨ c = 104 ∨ c = 109 ∨ c = 115 ∨ c = 99 ∨ c = 79 ∨ c = 111 then
    (if !isdigit d then none
     else if c = 68 then some { st with D := acc st.D d, hasD := true }
     else if c = 77 then some { st with M := acc st.M d, hasM := true }
     else if c = 89 then some { st with Y := acc st.Y d, hasY := true }
     else if c = 104 then some { st with h := acc st.h d }
     else if c = 109 then some { st with m := acc st.m d }
     else if c = 115 then some { st with s := acc st.s d }
     else if c = 79 then some { st with O := acc st.O d }
     else if c = 111 then some { st with o := acc st.O d }
     else some st)
  else if d ≠ c then none else some st

/-- The loop (validator.cpp:267-291). -/
def dateLoop : DT → Bytes → Bytes → Option DT
  | st, c :: f, d :: t => match dateStep st c d with
    | none => none
    | some st => dateLoop st f t
  | st, _, _ => some st

/-- The table of days (validator.cpp:296-299) at `[isleap][M-1]`. -/
def daysOf (leap : Bool) (M : Nat) : Nat :=
  ((if leap then [31,29,31,30,31,30,31,31,30,31,30,31] else [31,28,31,30,31,30,31,31,30,31,30,31])[M - 1]?).getD 0

/-- `isleap` (validator.cpp:300). -/
def isleap (Y : Nat) : Bool := (Y % 4 == 0 && Y % 100 != 0) || Y % 400 == 0

/-- The tests of the fields (validator.cpp:293-306). -/
def dateFinal (st : DT) : Bool :=
  if st.hasY && decide (st.Y < 1000) then false
  else if st.hasM && (st.M == 0 || decide (st.M > 12)) then false
  else if st.hasD && st.hasM && (st.D == 0 || decide (st.D > daysOf (isleap st.Y) st.M)) then false
  else if st.h > 23 ∨ st.m > 59 ∨ st.s > 59 then false
  else if st.O > 23 ∨ st.o > 59 then false
  else true

/-- `checkDateTimeGen` (validator.cpp:252-307). -/
def checkDateTimeGen (format text : Bytes) : Bool :=
  if format.length ≠ text.length then false
  else match dateLoop {} format text with
    | none => false
    | some st => dateFinal st

/-- Format of `datetime` and `datetimez` (validator.cpp:632). -/
def fmtDateTime : Bytes := ascii "YYYY-MM-DDThh:mm:ssZ"
/-- Format of `date` (validator.cpp:635). -/
def fmtDate : Bytes := ascii "YYYY-MM-DD"
/-- Format of `time` (validator.cpp:638). -/
def fmtTime : Bytes := ascii "hh:mm:ss"
/-- Format of `timez` (validator.cpp:641). -/
def fmtTimeZ : Bytes := ascii "hh:mm:ssZ"

/-! ### Character sets -/

/-- `r[i]` where the view `r` starts at `off` in the buffer `buf` of the rule; the buffer includes the terminating zero
of `std::wstring`. The view does not check the index (absent submodule `shared`), reading outside of the buffer is
undefined. -/
def rd (buf : List Nat) (off i : Nat) : Res Nat := match buf[off + i]? with
  | some c => .ok c
  | none => .ub

/-- The loop over `i < adjlen` (validator.cpp:531-544): whether `x` was found. The first number bounds the number of turns; it is enough, see
`Props/ValidText`. -/
def scan (buf : List Nat) (off adjlen x : Nat) : Nat → Nat → Res Bool
  | 0, _ => .fuel
  | n + 1, i =>
    if i < adjlen then do
      let b ← rd buf off (i + 1)
      if b = 45 then
        let a ← rd buf off i
        let c ← rd buf off (i + 2)
        if a ≤ x ∧ x ≤ c then pure true else scan buf off adjlen x n (i + 3)
      else
        let a ← rd buf off i
        if x = a then pure true else scan buf off adjlen x n (i + 1)
    else pure false

/-- The loop over the tail `i = adjlen .. r.length` (validator.cpp:545-552). -/
def tail (buf : List Nat) (off len x : Nat) : Nat → Nat → Res Bool
  | 0, _ => .fuel
  | n + 1, i =>
    if i < len then do
      let a ← rd buf off i
      if x = a then pure true else tail buf off len x n (i + 1)
    else pure false

/-- Whether a character is in the set described by the view at `off` of length `len`; `adjlen = len - 2` is of the
type `size_t` (validator.cpp:528). -/
def inSet (buf : List Nat) (off len x : Nat) : Res Bool := do
  let found ← scan buf off (sub64 len 2) x (buf.length + 1) 0
  if found then pure true else tail buf off len x (buf.length + 1) (sub64 len 2)

/-- The loop over the subject (validator.cpp:529-554). -/
def charLoop (buf : List Nat) (off len : Nat) (neg : Bool) : List Nat → Res Bool
  | [] => pure true
  | x :: t => do
    let found ← inSet buf off len x
    if found = neg then pure false else charLoop buf off len neg t

/-- `opTestCharset` (validator.cpp:512-557). `wchar_t` values are below 2^31. -/
def opTestCharset (subject rule : List Nat) : Res Bool :=
  let buf := rule ++ [0]
  let r := substr rule 1 (sub64 rule.length 2)
  if r = [] then pure (decide (subject = []))
  else if subject = [] then pure false
  else if r[0]? = some 94 ∧ r.length > 1 then charLoop buf 2 (r.length - 1) true subject
  else charLoop buf 1 r.length false subject

end Imt.VText
