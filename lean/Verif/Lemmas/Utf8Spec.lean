import Verif.Lemmas.Utf8
import Verif.Spec.Utf8
/-! # Relation between the encoder and the UTF-8 specification -/
namespace Imt.Utf8
open Imt Spec

theorem wide1 {w : Nat} (h : w < 128) : wideToUtf8 w = [w] := by
  rw [wideToUtf8_eq, if_pos (by omega)]; congr 1; omega
theorem wide2 {w : Nat} (h : 128 ≤ w) (h' : w ≤ 0x7FF) : wideToUtf8 w = [192 + w / 64, 128 + w % 64] := by
  rw [wideToUtf8_eq, if_neg (by omega), if_pos (by omega)]
theorem wide3 {w : Nat} (h : 0x800 ≤ w) (h' : w ≤ 0xFFFF) :
    wideToUtf8 w = [224 + w / 4096, 128 + w / 64 % 64, 128 + w % 64] := by
  rw [wideToUtf8_eq, if_neg (by omega), if_neg (by omega), if_pos (by omega)]
theorem wide4 {w : Nat} (h : 0x10000 ≤ w) (h' : w ≤ 0x10FFFF) :
    wideToUtf8 w = [240 + w / 262144, 128 + w / 4096 % 64, 128 + w / 64 % 64, 128 + w % 64] := by
  rw [wideToUtf8_eq, if_neg (by omega), if_neg (by omega), if_neg (by omega), if_pos (by omega)]

theorem encode_cons (w : Nat) (ws : List Nat) : encode (w :: ws) = wideToUtf8 w ++ encode ws := by
  simp [encode]

theorem wf_wide_append {w : Nat} (h : IsScalar w) {r : Bytes} (hr : WellFormedUtf8 r) :
    WellFormedUtf8 (wideToUtf8 w ++ r) := by
  unfold IsScalar at h
  by_cases h1 : w < 128
  · rw [wide1 h1]; exact .one (by unfold inR; omega) hr
  by_cases h2 : w ≤ 0x7FF
  · rw [wide2 (by omega) h2]; exact .two (by unfold inR; omega) (by unfold inR; omega) hr
  by_cases h3 : w ≤ 0xFFFF
  · rw [wide3 (by omega) h3]
    by_cases a : w / 4096 = 0
    · rw [a]; exact .three1 (by unfold inR; omega) (by unfold inR; omega) hr
    by_cases b : w / 4096 ≤ 12
    · exact .three2 (by unfold inR; omega) (by unfold inR; omega) (by unfold inR; omega) hr
    by_cases c : w / 4096 = 13
    · rw [c]; exact .three3 (by unfold inR; omega) (by unfold inR; omega) hr
    · exact .three4 (by unfold inR; omega) (by unfold inR; omega) (by unfold inR; omega) hr
  · rw [wide4 (by omega) (by omega)]
    by_cases a : w / 262144 = 0
    · rw [a]; exact .four1 (by unfold inR; omega) (by unfold inR; omega) (by unfold inR; omega) hr
    by_cases b : w / 262144 ≤ 3
    · exact .four2 (by unfold inR; omega) (by unfold inR; omega) (by unfold inR; omega) (by unfold inR; omega) hr
    · have : w / 262144 = 4 := by omega
      rw [this]; exact .four3 (by unfold inR; omega) (by unfold inR; omega) (by unfold inR; omega) hr

theorem wf_encode (ws : List Nat) (h : ∀ w ∈ ws, IsScalar w) : WellFormedUtf8 (encode ws) := by
  induction ws with
  | nil => exact .nil
  | cons w ws ih =>
    rw [encode_cons]
    exact wf_wide_append (h w (by simp)) (ih (fun x hx => h x (by simp [hx])))

/-- Every well-formed sequence is the encoding of a list of scalar values. -/
theorem encode_of_wf {s : Bytes} (h : WellFormedUtf8 s) : ∃ ws, (∀ w ∈ ws, IsScalar w) ∧ s = encode ws := by
  have cons2 : ∀ (w : Nat) (pre r : Bytes), IsScalar w → wideToUtf8 w = pre →
      (∃ ws, (∀ w ∈ ws, IsScalar w) ∧ r = encode ws) →
      ∃ ws, (∀ w ∈ ws, IsScalar w) ∧ pre ++ r = encode ws := by
    rintro w pre r hw hp ⟨ws, h1, h2⟩
    refine ⟨w :: ws, ?_, ?_⟩
    · intro x hx; rcases List.mem_cons.1 hx with rfl | hx
      · exact hw
      · exact h1 x hx
    · rw [encode_cons, hp, h2]
  induction h with
  | nil => exact ⟨[], by simp, rfl⟩
  | @one a r ha _ ih =>
    exact cons2 a [a] r (by unfold IsScalar inR at *; omega) (wide1 (by unfold inR at *; omega)) ih
  | @two a b r ha hb _ ih =>
    unfold inR at *
    refine cons2 ((a - 192) * 64 + (b - 128)) [a, b] r (by unfold IsScalar; omega) ?_ ih
    rw [wide2 (by omega) (by omega)]; simp only [List.cons.injEq, and_true]; omega
  | @three1 b c r hb hc _ ih =>
    unfold inR at *
    refine cons2 ((b - 128) * 64 + (c - 128)) [0xE0, b, c] r (by unfold IsScalar; omega) ?_ ih
    rw [wide3 (by omega) (by omega)]; simp only [List.cons.injEq, and_true]; omega
  | @three2 a b c r ha hb hc _ ih =>
    unfold inR at *
    refine cons2 ((a - 224) * 4096 + (b - 128) * 64 + (c - 128)) [a, b, c] r (by unfold IsScalar; omega) ?_ ih
    rw [wide3 (by omega) (by omega)]; simp only [List.cons.injEq, and_true]; omega
  | @three3 b c r hb hc _ ih =>
    unfold inR at *
    refine cons2 (13 * 4096 + (b - 128) * 64 + (c - 128)) [0xED, b, c] r (by unfold IsScalar; omega) ?_ ih
    rw [wide3 (by omega) (by omega)]; simp only [List.cons.injEq, and_true]; omega
  | @three4 a b c r ha hb hc _ ih =>
    unfold inR at *
    refine cons2 ((a - 224) * 4096 + (b - 128) * 64 + (c - 128)) [a, b, c] r (by unfold IsScalar; omega) ?_ ih
    rw [wide3 (by omega) (by omega)]; simp only [List.cons.injEq, and_true]; omega
  | @four1 b c d r hb hc hd _ ih =>
    unfold inR at *
    refine cons2 ((b - 128) * 4096 + (c - 128) * 64 + (d - 128)) [0xF0, b, c, d] r (by unfold IsScalar; omega) ?_ ih
    rw [wide4 (by omega) (by omega)]; simp only [List.cons.injEq, and_true]; omega
  | @four2 a b c d r ha hb hc hd _ ih =>
    unfold inR at *
    refine cons2 ((a - 240) * 262144 + (b - 128) * 4096 + (c - 128) * 64 + (d - 128)) [a, b, c, d] r
      (by unfold IsScalar; omega) ?_ ih
    rw [wide4 (by omega) (by omega)]; simp only [List.cons.injEq, and_true]; omega
  | @four3 b c d r hb hc hd _ ih =>
    unfold inR at *
    refine cons2 (4 * 262144 + (b - 128) * 4096 + (c - 128) * 64 + (d - 128)) [0xF4, b, c, d] r
      (by unfold IsScalar; omega) ?_ ih
    rw [wide4 (by omega) (by omega)]; simp only [List.cons.injEq, and_true]; omega

end Imt.Utf8
