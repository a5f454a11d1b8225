import Verif.Model.Utf8
/-! # Lemmas about the UTF-8 converters -/
namespace Imt.Utf8
open Imt

theorem or80 : ∀ x < 64, 0x80 ||| x = 128 + x := by decide +kernel
theorem orC0 : ∀ x < 32, 0xC0 ||| x = 192 + x := by decide +kernel
theorem orE0 : ∀ x < 16, 0xE0 ||| x = 224 + x := by decide +kernel
theorem orF0 : ∀ x < 8, 0xF0 ||| x = 240 + x := by decide +kernel

theorem and3F (w : Nat) : w &&& 0x3F = w % 64 := Nat.and_two_pow_sub_one_eq_mod w 6
theorem and1F (w : Nat) : w &&& 0x1F = w % 32 := Nat.and_two_pow_sub_one_eq_mod w 5
theorem and0F (w : Nat) : w &&& 0x0F = w % 16 := Nat.and_two_pow_sub_one_eq_mod w 4
theorem and07 (w : Nat) : w &&& 0x07 = w % 8 := Nat.and_two_pow_sub_one_eq_mod w 3

/-- Arithmetic form of the encoder. -/
theorem wideToUtf8_eq (w : Nat) : wideToUtf8 w =
    if w < 128 ∨ 2 ^ 31 ≤ w then [w % 256]
    else if w ≤ 0x7FF then [192 + w / 64, 128 + w % 64]
    else if w ≤ 0xFFFF then [224 + w / 4096, 128 + w / 64 % 64, 128 + w % 64]
    else if w ≤ 0x10FFFF then [240 + w / 262144, 128 + w / 4096 % 64, 128 + w / 64 % 64, 128 + w % 64]
    else [] := by
  unfold wideToUtf8
  simp only [and3F, Nat.shiftRight_eq_div_pow]
  split
  · rfl
  split
  · rw [orC0 _ (by omega), or80 _ (by omega)]
  split
  · rw [orE0 _ (by omega), or80 _ (by omega), or80 _ (by omega)]
  split
  · rw [orF0 _ (by omega), or80 _ (by omega), or80 _ (by omega), or80 _ (by omega)]
  · rfl

theorem maskC0 : ∀ c < 256, (c &&& 0xC0 = 0x80 ↔ 128 ≤ c ∧ c < 192) := by decide +kernel
theorem maskE0 : ∀ c < 256, (c &&& 0xE0 = 0xC0 ↔ 192 ≤ c ∧ c < 224) := by decide +kernel
theorem maskF0 : ∀ c < 256, (c &&& 0xF0 = 0xE0 ↔ 224 ≤ c ∧ c < 240) := by decide +kernel
theorem maskF8 : ∀ c < 256, (c &&& 0xF8 = 0xF0 ↔ 240 ≤ c ∧ c < 248) := by decide +kernel

/-- Arithmetic form of one decoder step on a byte. -/
theorem Dec.step_eq (s : Dec) (c : Nat) (h : c < 256) : s.step c =
    if 128 ≤ c ∧ c < 192 then
      (⟨(s.uchar * 64) % 2 ^ 32 + c % 64, (s.b + (2 ^ 32 - 1)) % 2 ^ 32⟩,
        if (s.b + (2 ^ 32 - 1)) % 2 ^ 32 = 0 then some ((s.uchar * 64) % 2 ^ 32 + c % 64) else none)
    else if 192 ≤ c ∧ c < 224 then (⟨c % 32, 1⟩, none)
    else if 224 ≤ c ∧ c < 240 then (⟨c % 16, 2⟩, none)
    else if 240 ≤ c ∧ c < 248 then (⟨c % 8, 3⟩, none)
    else (s, some c) := by
  unfold Dec.step
  have hor : ((s.uchar <<< 6) % 2 ^ 32) ||| (c % 64) = (s.uchar * 64) % 2 ^ 32 + c % 64 := by
    have h1 : (s.uchar <<< 6) % 2 ^ 32 = ((s.uchar % 2 ^ 26) <<< 6) := by
      simp only [Nat.shiftLeft_eq]; omega
    rw [h1, ← Nat.shiftLeft_add_eq_or_of_lt (by omega)]
    simp only [Nat.shiftLeft_eq]; omega
  simp only [and3F, and1F, and0F, and07, maskC0 c h, maskE0 c h, maskF0 c h, maskF8 c h, hor]

theorem decodeFrom_append (s : Dec) (x y : Bytes) :
    decodeFrom s (x ++ y) =
      ((decodeFrom (decodeFrom s x).1 y).1, (decodeFrom s x).2 ++ (decodeFrom (decodeFrom s x).1 y).2) := by
  induction x generalizing s with
  | nil => simp [decodeFrom]
  | cons c cs ih => simp [decodeFrom, ih, List.append_assoc]

theorem Dec.step_cont (s : Dec) (x : Nat) (h : x < 64) : s.step (128 + x) =
      (⟨(s.uchar * 64) % 2 ^ 32 + x, (s.b + (2 ^ 32 - 1)) % 2 ^ 32⟩,
        if (s.b + (2 ^ 32 - 1)) % 2 ^ 32 = 0 then some ((s.uchar * 64) % 2 ^ 32 + x) else none) := by
  rw [Dec.step_eq _ _ (by omega), if_pos (by omega)]
  have : (128 + x) % 64 = x := by omega
  rw [this]
theorem Dec.step_last (u x : Nat) (h : x < 64) (hu : u < 2 ^ 26) :
    Dec.step ⟨u, 1⟩ (128 + x) = (⟨u * 64 + x, 0⟩, some (u * 64 + x)) := by
  rw [Dec.step_cont _ _ h]
  have h1 : (1 + (2 ^ 32 - 1)) % 2 ^ 32 = 0 := by omega
  have h2 : u * 64 % 2 ^ 32 = u * 64 := by omega
  simp only [h1, h2, if_true]
theorem Dec.step_more (u b x : Nat) (h : x < 64) (hu : u < 2 ^ 26) (hb : b < 8) :
    Dec.step ⟨u, b + 2⟩ (128 + x) = (⟨u * 64 + x, b + 1⟩, none) := by
  rw [Dec.step_cont _ _ h]
  have h1 : (b + 2 + (2 ^ 32 - 1)) % 2 ^ 32 = b + 1 := by omega
  have h2 : u * 64 % 2 ^ 32 = u * 64 := by omega
  simp only [h1, h2]
  rw [if_neg (by omega)]
theorem Dec.step_lead2 (s : Dec) (x : Nat) (h : x < 32) : s.step (192 + x) = (⟨x, 1⟩, none) := by
  rw [Dec.step_eq _ _ (by omega), if_neg (by omega), if_pos (by omega)]
  have : (192 + x) % 32 = x := by omega
  rw [this]
theorem Dec.step_lead3 (s : Dec) (x : Nat) (h : x < 16) : s.step (224 + x) = (⟨x, 2⟩, none) := by
  rw [Dec.step_eq _ _ (by omega), if_neg (by omega), if_neg (by omega), if_pos (by omega)]
  have : (224 + x) % 16 = x := by omega
  rw [this]
theorem Dec.step_lead4 (s : Dec) (x : Nat) (h : x < 8) : s.step (240 + x) = (⟨x, 3⟩, none) := by
  rw [Dec.step_eq _ _ (by omega), if_neg (by omega), if_neg (by omega), if_neg (by omega), if_pos (by omega)]
  have : (240 + x) % 8 = x := by omega
  rw [this]
theorem Dec.step_ascii (s : Dec) (x : Nat) (h : x < 128) : s.step x = (s, some x) := by
  rw [Dec.step_eq _ _ (by omega), if_neg (by omega), if_neg (by omega), if_neg (by omega), if_neg (by omega)]

/-- A complete encoded character decodes to itself, whatever the state before. -/
theorem decodeFrom_wide (s : Dec) (w : Nat) (h : w < 0x110000) :
    (decodeFrom s (wideToUtf8 w)).2 = [w] := by
  rw [wideToUtf8_eq]
  split
  · have : w % 256 = w := by omega
    simp only [decodeFrom, this]
    rw [Dec.step_ascii _ _ (by omega)]
    simp
  split
  · simp only [decodeFrom]
    rw [Dec.step_lead2 _ _ (by omega), Dec.step_last _ _ (by omega) (by omega)]
    simp only [Option.toList, List.nil_append, List.append_nil, List.cons.injEq, and_true]
    omega
  split
  · simp only [decodeFrom]
    rw [Dec.step_lead3 _ _ (by omega), Dec.step_more _ 0 _ (by omega) (by omega) (by omega),
      Dec.step_last _ _ (by omega) (by omega)]
    simp only [Option.toList, List.nil_append, List.append_nil, List.cons.injEq, and_true]
    omega
  split
  · simp only [decodeFrom]
    rw [Dec.step_lead4 _ _ (by omega), Dec.step_more _ 1 _ (by omega) (by omega) (by omega),
      Dec.step_more _ 0 _ (by omega) (by omega) (by omega), Dec.step_last _ _ (by omega) (by omega)]
    simp only [Option.toList, List.nil_append, List.append_nil, List.cons.injEq, and_true]
    omega
  · omega

theorem decodeFrom_encode (s : Dec) (ws : List Nat) (h : ∀ w ∈ ws, w < 0x110000) :
    (decodeFrom s (encode ws)).2 = ws := by
  induction ws generalizing s with
  | nil => simp [encode, decodeFrom]
  | cons w ws ih =>
    have hw := h w (by simp)
    have e : encode (w :: ws) = wideToUtf8 w ++ encode ws := by simp [encode]
    rw [e, decodeFrom_append, decodeFrom_wide s w hw]
    simp [ih _ (fun x hx => h x (by simp [hx]))]

theorem wideToUtf8_valid (w : Nat) : Bytes.Valid (wideToUtf8 w) := by
  rw [wideToUtf8_eq]
  intro b hb
  split at hb
  · simp at hb; omega
  split at hb
  · simp at hb; omega
  split at hb
  · simp at hb; omega
  split at hb
  · simp at hb; omega
  · simp at hb

end Imt.Utf8
