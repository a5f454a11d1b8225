import Verif.Lemmas.Utf8Spec
import Verif.Lemmas.Basic
/-! # Properties of the UTF-8 converters: C12, C13 -/
namespace Imt.Props
open Imt Utf8 Spec

/-- C12, first half: decoding what the encoder wrote gives back the code points, for every list of code points
(surrogates included) and whatever state an earlier, arbitrary (also malformed) input left in the decoder. -/
theorem C12_decode_encode (garbage : Bytes) (ws : List Nat) (h : ∀ w ∈ ws, w < 0x110000) :
    (decodeFrom (decodeFrom Dec.init garbage).1 (encode ws)).2 = ws :=
  decodeFrom_encode _ ws h

example : ∀ w ∈ [0x41, 0xE9, 0x20AC, 0xD800, 0x1F600, 0x10FFFF], w < 0x110000 := by decide

/-- C12, second half: a well-formed byte sequence is restored by decoding and re-encoding. -/
theorem C12_encode_decode (s : Bytes) (h : WellFormedUtf8 s) : encode (decode s) = s := by
  obtain ⟨ws, h1, rfl⟩ := encode_of_wf h
  rw [decode, decodeFrom_encode]
  intro w hw; have := h1 w hw; unfold IsScalar at this; omega

/-- C12: the encoder emits well-formed UTF-8 exactly for scalar values, and decoding well-formed UTF-8 yields scalar
values. -/
theorem C12_wellformed_iff (s : Bytes) :
    WellFormedUtf8 s ↔ ∃ ws, (∀ w ∈ ws, IsScalar w) ∧ s = encode ws :=
  ⟨encode_of_wf, by rintro ⟨ws, h, rfl⟩; exact wf_encode ws h⟩

example : WellFormedUtf8 [0x41, 0xC3, 0xA9, 0xF0, 0x9F, 0x98, 0x80] :=
  .one (by decide) (.two (by decide) (by decide) (.four1 (by decide) (by decide) (by decide) .nil))

/-- Streaming: the converter may be fed in blocks cut anywhere (utf8.h:69-73). -/
theorem C12_streaming (s : Dec) (x y : Bytes) :
    (decodeFrom s (x ++ y)).2 = (decodeFrom s x).2 ++ (decodeFrom (decodeFrom s x).1 y).2 := by
  rw [decodeFrom_append]

/-- C13: converting a wide string to a `String` and back gives the wide string. -/
theorem C13_wide_round_trip (ws : List Nat) (h : ∀ w ∈ ws, w < 0x110000) :
    wideOfString (stringOfWide ws) = ws := by
  have : ws.takeWhile (· != 0xFFFFFFFF) = ws := by
    apply takeWhile_all
    intro w hw; have := h w hw; simp; omega
  rw [wideOfString, stringOfWide, this, decode, decodeFrom_encode _ _ h]

/-- What happens outside the quantifier of C13: wide characters above 0x10FFFF are dropped. -/
theorem C13_out_of_range_dropped (w : Nat) (h : 0x110000 ≤ w) (h' : w < 2 ^ 31) :
    stringOfWide [w] = [] := by
  have : ([w].takeWhile (· != 0xFFFFFFFF)) = [w] := by
    apply takeWhile_all; simp; omega
  rw [stringOfWide, this, encode_cons, wideToUtf8_eq, if_neg (by omega), if_neg (by omega), if_neg (by omega),
    if_neg (by omega)]
  rfl

example : 0x110000 ≤ 0x110001 ∧ 0x110001 < 2 ^ 31 := by decide

end Imt.Props
