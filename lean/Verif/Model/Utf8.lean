import Verif.Model.Base
/-!
# UTF-8 converters (`utf8.h`)
-/
namespace Imt.Utf8
open Imt

/-- Bytes emitted by `WideToUtf8::operator()` for one wide character (utf8.h:30-53). The C++ `int wchar` is given by
its 32-bit pattern, so a negative `int` is a number `≥ 2^31`; the first test `wchar < 128` holds for those and
`(char)wchar` keeps the low byte. Characters above 0x10FFFF emit nothing. -/
def wideToUtf8 (w : Nat) : Bytes :=
  if w < 128 ∨ 2 ^ 31 ≤ w then [w % 256]
  else if w ≤ 0x7FF then [0xC0 ||| (w >>> 6), 0x80 ||| (w &&& 0x3F)]
  else if w ≤ 0xFFFF then
    [0xE0 ||| (w >>> 12), 0x80 ||| ((w >>> 6) &&& 0x3F), 0x80 ||| (w &&& 0x3F)]
  else if w ≤ 0x10FFFF then
    [0xF0 ||| (w >>> 18), 0x80 ||| ((w >>> 12) &&& 0x3F), 0x80 ||| ((w >>> 6) &&& 0x3F), 0x80 ||| (w &&& 0x3F)]
  else []

/-- State of `Utf8ToWide` (utf8.h:59-61): two `unsigned int` members. -/
structure Dec where
  uchar : Nat
  b : Nat
deriving Repr, DecidableEq

/-- Initial state (utf8.h:60-61). -/
def Dec.init : Dec := ⟨0, 0⟩

/-- One iteration of the loop of `Utf8ToWide::operator()` (utf8.h:80-97). `c` is the 32-bit pattern of the `int`
read; `unsigned int` arithmetic is modulo 2^32 (`b--` wraps at 0, the shift drops high bits). Returns the
character passed to `outputFn`, if any. -/
def Dec.step (s : Dec) (c : Nat) : Dec × Option Nat :=
  if c &&& 0xC0 = 0x80 then
    let u := ((s.uchar <<< 6) % 2 ^ 32) ||| (c &&& 0x3F)
    let b := (s.b + (2 ^ 32 - 1)) % 2 ^ 32
    (⟨u, b⟩, if b = 0 then some u else none)
  else if c &&& 0xE0 = 0xC0 then (⟨c &&& 0x1F, 1⟩, none)
  else if c &&& 0xF0 = 0xE0 then (⟨c &&& 0x0F, 2⟩, none)
  else if c &&& 0xF8 = 0xF0 then (⟨c &&& 0x07, 3⟩, none)
  else (s, some c)

/-- The whole loop of `Utf8ToWide::operator()` on a finite input (utf8.h:78-99), started in state `s`; returns the
final state and all characters emitted. -/
def decodeFrom (s : Dec) : Bytes → Dec × List Nat
  | [] => (s, [])
  | c :: cs =>
    let r := s.step c
    let t := decodeFrom r.1 cs
    (t.1, r.2.toList ++ t.2)

/-- `Utf8ToWide` run on a fresh converter. -/
def decode (s : Bytes) : List Nat := (decodeFrom Dec.init s).2

/-- `WideToUtf8` run on a finite input. -/
def encode (ws : List Nat) : Bytes := ws.flatMap wideToUtf8

/-- `String::String(const StringView<wchar_t>&)` (string.cpp:260-275): the loop of the converter stops at `eof` = -1,
that is, at a `wchar_t` whose 32-bit pattern is 0xFFFFFFFF; the rest of the wide string is not converted. -/
def stringOfWide (ws : List Nat) : Bytes := encode (ws.takeWhile (· != 0xFFFFFFFF))

/-- `String::wstr` (string.cpp:277-284), reading the bytes through `fromString` of streams.h (unsigned bytes, -1 at
the end). `wchar_t` is 32 bits on LP64. -/
def wideOfString (s : Bytes) : List Nat := decode s

end Imt.Utf8
