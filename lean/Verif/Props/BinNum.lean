import Verif.Lemmas.BinTrip
import Mathlib.Tactic.Ring
import Mathlib.Tactic.FieldSimp
import Mathlib.Tactic.NormNum
import Mathlib.Tactic.Linarith
import Mathlib.Data.Rat.Defs
/-!
# C160: what the numbers of the binary format stand for
-/
namespace Imt.Props
open Imt BinJson

/-- The forms of an integer with the tag `t`: a digit up to nine within the tag, or 1, 2, 4 or 8 bytes, the lowest first. -/
inductive IntForm (t n : Nat) : Bytes → Prop
  | short : n ≤ 9 → IntForm t n [16 * t + n]
  | wide1 : n < 2 ^ 8 → IntForm t n ((16 * t + 10) :: le 1 n)
  | wide2 : n < 2 ^ 16 → IntForm t n ((16 * t + 11) :: le 2 n)
  | wide4 : n < 2 ^ 32 → IntForm t n ((16 * t + 12) :: le 4 n)
  | wide8 : n < 2 ^ 64 → IntForm t n ((16 * t + 13) :: le 8 n)

theorem intForm_read {t n : Nat} {b : Bytes} (env : Env) (h : IntForm t n b) (rest : Bytes) (hist : List Bytes) (ki : Nat) :
    ∃ c r, b = c :: r ∧ c / 16 = t ∧ parseInteger env c ⟨r ++ rest, hist, ki⟩ = .ok (n, ⟨rest, hist, ki⟩) := by
  have wide : ∀ k (_ : Nat), n < 256 ^ k →
      (do let r ← readN env k ⟨le k n ++ rest, hist, ki⟩; pure (ofLe r.1, r.2) : Res (Nat × PS)) = .ok (n, ⟨rest, hist, ki⟩) := by
    intro k c hn
    rw [readN_append' env k (le k n) rest hist ki (le_length k n)]
    show Res.ok (ofLe (le k n), _) = _
    rw [ofLe_le k n hn]
  cases h with
  | short hn =>
    refine ⟨_, _, rfl, by omega, ?_⟩
    have e : (16 * t + n) % 16 = n := by omega
    unfold parseInteger
    rw [e]
    match n, hn with
    | 0, _ => rfl
    | 1, _ => rfl
    | 2, _ => rfl
    | 3, _ => rfl
    | 4, _ => rfl
    | 5, _ => rfl
    | 6, _ => rfl
    | 7, _ => rfl
    | 8, _ => rfl
    | 9, _ => rfl
  | wide1 hn =>
    refine ⟨_, _, rfl, by omega, ?_⟩
    have e : (16 * t + 10) % 16 = 10 := by omega
    unfold parseInteger
    rw [e]
    exact wide 1 0 (by simpa using hn)
  | wide2 hn =>
    refine ⟨_, _, rfl, by omega, ?_⟩
    have e : (16 * t + 11) % 16 = 11 := by omega
    unfold parseInteger
    rw [e]
    exact wide 2 0 (by simpa using hn)
  | wide4 hn =>
    refine ⟨_, _, rfl, by omega, ?_⟩
    have e : (16 * t + 12) % 16 = 12 := by omega
    unfold parseInteger
    rw [e]
    exact wide 4 0 (by simpa using hn)
  | wide8 hn =>
    refine ⟨_, _, rfl, by omega, ?_⟩
    have e : (16 * t + 13) % 16 = 13 := by omega
    unfold parseInteger
    rw [e]
    exact wide 8 0 (by simpa using hn)

/-- **C160, positive integers**: each form of an integer is read as the integer. -/
theorem C160_positive (env : Env) (n : Nat) (b rest : Bytes) (h : IntForm 2 n b) (f : Nat) :
    parseBinary env (f + 1) (b ++ rest) = .ok (.node [] (.uint false n) [], ⟨rest, [], 0⟩) := by
  obtain ⟨c, r, rfl, hc, hp⟩ := intForm_read env h rest [] 0
  unfold parseBinary
  rw [parseItem]
  simp only [List.cons_append, next]
  simp [hc, hp]

/-- **C160, negative integers**: each form is read as the negated integer down to -2^63+1, zero as zero. -/
theorem C160_negative (env : Env) (n : Nat) (b rest : Bytes) (h : IntForm 3 n b) (hn : n < 2 ^ 63) (f : Nat) :
    ∃ sh, parseBinary env (f + 1) (b ++ rest) = .ok (.node [] sh [], ⟨rest, [], 0⟩) ∧
      ((sh = .uint false 0 ∧ n = 0) ∨ (sh = .int false (-(n : Int)) ∧ 0 < n)) := by
  obtain ⟨c, r, rfl, hc, hp⟩ := intForm_read env h rest [] 0
  refine ⟨if n = 0 then .uint false 0 else .int false (-(n : Int)), ?_, ?_⟩
  · unfold parseBinary
    rw [parseItem]
    simp only [List.cons_append, next]
    have e : negInt n = .ok (if n = 0 then .uint false 0 else .int false (-(n : Int))) := by
      unfold negInt
      by_cases h0 : n = 0
      · rw [if_pos h0, if_pos h0]
      · rw [if_neg h0, if_neg h0, if_pos hn]
    simp [hc, hp, e]
  · by_cases h0 : n = 0
    · left; simp [h0]
    · right; exact ⟨if_neg h0, by omega⟩

/-- **C160, violations**: -2^63 cannot be read, and beyond it the sign is lost. -/
theorem C160_violation_sign (env : Env) (n : Nat) (hn : 2 ^ 63 ≤ n) (hl : n < 2 ^ 64) (rest : Bytes) (f : Nat) :
    parseBinary env (f + 1) ((0x3D :: le 8 n) ++ rest) =
      if n = 2 ^ 63 then .ub else .ok (.node [] (.int false ((2 ^ 64 - n : Nat) : Int)) [], ⟨rest, [], 0⟩) := by
  obtain ⟨c, r, hb, hc, hp⟩ := intForm_read env (IntForm.wide8 (t := 3) hl) rest [] 0
  cases hb
  unfold parseBinary
  rw [parseItem]
  simp only [List.cons_append, next]
  have e : negInt n = if n = 2 ^ 63 then .ub else .ok (.int false ((2 ^ 64 - n : Nat) : Int)) := by
    unfold negInt
    rw [if_neg (by omega), if_neg (by omega)]
  by_cases h0 : n = 2 ^ 63
  · rw [if_pos h0] at e ⊢
    simp [hp, e]
  · rw [if_neg h0] at e ⊢
    simp [hp, e]

example : IntForm 2 5 [0x25] ∧ IntForm 2 5 [0x2B, 5, 0] ∧ IntForm 3 1000 [0x3B, 0xE8, 3] ∧ IntForm 3 0 [0x30] :=
  ⟨.short (by decide), .wide2 (by decide), .wide2 (by decide), .short (by decide)⟩

/-! ### Floating point -/

/-- The number a pattern of 64 bits stands for; the exponent 2047 is for infinities and NaN. -/
def real64 (b : Nat) : ℚ :=
  (if b / 2 ^ 63 % 2 = 1 then -1 else 1) *
    (if b / 2 ^ 52 % 2 ^ 11 = 0 then ((b % 2 ^ 52 : Nat) : ℚ) / 2 ^ 1074 else (2 ^ 52 + ((b % 2 ^ 52 : Nat) : ℚ)) * 2 ^ (b / 2 ^ 52 % 2 ^ 11) / 2 ^ 1075)

/-- The number a pattern of 32 bits stands for; the exponent 255 is for infinities and NaN. -/
def real32 (f : Nat) : ℚ :=
  (if f / 2 ^ 31 % 2 = 1 then -1 else 1) *
    (if f / 2 ^ 23 % 2 ^ 8 = 0 then ((f % 2 ^ 23 : Nat) : ℚ) / 2 ^ 149 else (2 ^ 23 + ((f % 2 ^ 23 : Nat) : ℚ)) * 2 ^ (f / 2 ^ 23 % 2 ^ 8) / 2 ^ 150)

theorem parts64 {s e m : Nat} (hs : s < 2) (he : e < 2 ^ 11) (hm : m < 2 ^ 52) :
    let b := s * 2 ^ 63 + e * 2 ^ 52 + m
    b / 2 ^ 63 % 2 = s ∧ b / 2 ^ 52 % 2 ^ 11 = e ∧ b % 2 ^ 52 = m ∧ b < 2 ^ 64 := by
  intro b
  refine ⟨?_, ?_, ?_, ?_⟩ <;> simp only [b] <;> omega

/-- What is read from a pattern of 32 bits has the value of the pattern, infinities and NaN
stay what they are, and a zero of either sign becomes the integer zero. -/
theorem widen_value (f : Nat) (hf : f < 2 ^ 32) :
    widen f < 2 ^ 64 ∧ (widen f / 2 ^ 63 % 2 = f / 2 ^ 31 % 2) ∧
    (f / 2 ^ 23 % 2 ^ 8 ≠ 255 → widen f / 2 ^ 52 % 2 ^ 11 ≠ 2047 ∧ real64 (widen f) = real32 f) ∧
    (f / 2 ^ 23 % 2 ^ 8 = 255 → widen f / 2 ^ 52 % 2 ^ 11 = 2047 ∧ (widen f % 2 ^ 52 = 0 ↔ f % 2 ^ 23 = 0)) := by
  have hs : f / 2 ^ 31 < 2 := by omega
  have hs' : f / 2 ^ 31 % 2 = f / 2 ^ 31 := by omega
  have hm : f % 2 ^ 23 < 2 ^ 23 := Nat.mod_lt _ (by decide)
  have he : f / 2 ^ 23 % 2 ^ 8 < 2 ^ 8 := Nat.mod_lt _ (by decide)
  have h256 : (256 : Nat) = 2 ^ 8 := rfl
  unfold real32
  rw [hs']
  unfold widen
  rw [h256]
  dsimp only
  generalize f / 2 ^ 31 = s at *
  generalize f / 2 ^ 23 % 2 ^ 8 = e at *
  generalize f % 2 ^ 23 = m at *
  by_cases h1 : e = 255
  · rw [if_pos h1]
    by_cases h2 : 0 < m ∧ m < 2 ^ 22
    · obtain ⟨a, b, c, d⟩ := parts64 (s := s) (e := 2047) (m := m * 2 ^ 29 + 2 ^ 51) hs (by decide) (by omega)
      rw [if_pos h2, Nat.add_assoc (s * 2 ^ 63 + 2047 * 2 ^ 52), a, b, c]
      exact ⟨d, rfl, fun h => absurd h1 h, fun _ => ⟨rfl, by omega⟩⟩
    · obtain ⟨a, b, c, d⟩ := parts64 (s := s) (e := 2047) (m := m * 2 ^ 29) hs (by decide) (by omega)
      rw [if_neg h2, Nat.add_zero, a, b, c]
      exact ⟨d, rfl, fun h => absurd h1 h, fun _ => ⟨rfl, by omega⟩⟩
  · rw [if_neg h1]
    by_cases h2 : e = 0
    · rw [if_pos h2]
      by_cases h3 : m = 0
      · obtain ⟨a, b, c, d⟩ := parts64 (s := s) (e := 0) (m := 0) hs (by decide) (by decide)
        rw [if_pos h3, show s * 2 ^ 63 = s * 2 ^ 63 + 0 * 2 ^ 52 + 0 by omega]
        unfold real64
        rw [a, b, c, if_pos rfl, if_pos h2, h3]
        exact ⟨d, rfl, fun _ => ⟨by decide, by simp⟩, fun h => absurd h h1⟩
      · have hk1 : 2 ^ Nat.log2 m ≤ m := Nat.log2_self_le h3
        have hk2 : m < 2 ^ (Nat.log2 m + 1) := Nat.lt_log2_self
        have hk3 : Nat.log2 m < 23 := (Nat.log2_lt h3).2 hm
        generalize Nat.log2 m = k at *
        have hlt : (m - 2 ^ k) * 2 ^ (52 - k) < 2 ^ 52 := by
          have : m - 2 ^ k < 2 ^ k := by rw [Nat.pow_succ] at hk2; omega
          calc (m - 2 ^ k) * 2 ^ (52 - k) < 2 ^ k * 2 ^ (52 - k) := Nat.mul_lt_mul_of_pos_right this (by positivity)
            _ = 2 ^ 52 := by rw [← Nat.pow_add]; congr 1; omega
        obtain ⟨a, b, c, d⟩ := parts64 (s := s) (e := k + 874) (m := (m - 2 ^ k) * 2 ^ (52 - k)) hs (by omega) hlt
        rw [if_neg h3]
        unfold real64
        rw [a, b, c, if_neg (show ¬ k + 874 = 0 by omega), if_pos h2]
        refine ⟨d, rfl, fun _ => ⟨by omega, ?_⟩, fun h => absurd h h1⟩
        congr 1
        rw [Nat.cast_mul, Nat.cast_sub hk1]
        push_cast
        rw [show (2 : ℚ) ^ 52 = 2 ^ k * 2 ^ (52 - k) by rw [← pow_add]; congr 1; omega]
        have h1075 : 52 - k + (k + 874) + 149 = 1075 := by omega
        rw [← h1075, pow_add _ (52 - k + (k + 874)), pow_add _ (52 - k)]
        field_simp
        ring
    · rw [if_neg h2]
      obtain ⟨a, b, c, d⟩ := parts64 (s := s) (e := e + 896) (m := m * 2 ^ 29) hs (by omega) (by omega)
      unfold real64
      rw [a, b, c, if_neg (show ¬ e + 896 = 0 by omega), if_neg h2]
      refine ⟨d, rfl, fun _ => ⟨by omega, ?_⟩, fun h => absurd h h1⟩
      congr 1
      rw [pow_add]
      push_cast
      rw [show (2 : ℚ) ^ 52 = 2 ^ 23 * 2 ^ 29 by rw [← pow_add], show (2 : ℚ) ^ 1075 = 2 ^ 150 * (2 ^ 29 * 2 ^ 896) by rw [← pow_add, ← pow_add]]
      field_simp
      ring

/-- **C160, single precision**: what is read from a pattern of 32 bits has the value of the pattern; infinities and NaN
stay what they are; a zero of either sign becomes the integer zero. -/
theorem C160_single (env : Env) (bits : Nat) (hb : bits < 2 ^ 32) (rest : Bytes) (f : Nat) :
    ∃ sh, parseBinary env (f + 1) ((5 :: le 4 bits) ++ rest) = .ok (.node [] sh [], ⟨rest, [], 0⟩) ∧
      ((bits % 2 ^ 31 = 0 ∧ sh = .uint false 0) ∨
       (bits % 2 ^ 31 ≠ 0 ∧ ∃ d, sh = .dbl d ∧ d < 2 ^ 64 ∧ d / 2 ^ 63 % 2 = bits / 2 ^ 31 % 2 ∧
        (bits / 2 ^ 23 % 2 ^ 8 ≠ 255 → d / 2 ^ 52 % 2 ^ 11 ≠ 2047 ∧ real64 d = real32 bits) ∧
        (bits / 2 ^ 23 % 2 ^ 8 = 255 → d / 2 ^ 52 % 2 ^ 11 = 2047 ∧ (d % 2 ^ 52 = 0 ↔ bits % 2 ^ 23 = 0)))) := by
  have hr := readN_append' env 4 (le 4 bits) rest [] 0 (le_length 4 bits)
  refine ⟨ofDouble (widen bits), ?_, ?_⟩
  · unfold parseBinary
    rw [parseItem]
    simp [next, hr, ofLe_le 4 bits (by omega)]
  · have hw := widen_value bits hb
    by_cases h0 : bits % 2 ^ 31 = 0
    · left
      refine ⟨h0, ?_⟩
      have : bits = 0 ∨ bits = 2 ^ 31 := by omega
      rcases this with rfl | rfl <;> decide
    · right
      refine ⟨h0, widen bits, ?_, hw⟩
      unfold ofDouble
      rw [if_neg]
      intro hz
      by_cases he : bits / 2 ^ 23 % 2 ^ 8 = 255
      · have := (hw.2.2.2 he).1
        omega
      · have h1 := (hw.2.2.1 he).2
        have h2 : real64 (widen bits) = 0 := by
          rcases hz with h | h <;> rw [h] <;> norm_num [real64]
        rw [h2] at h1
        unfold real32 at h1
        have hm : bits / 2 ^ 23 % 2 ^ 8 ≠ 0 ∨ bits % 2 ^ 23 ≠ 0 := by omega
        have hp : (if bits / 2 ^ 23 % 2 ^ 8 = 0 then ((bits % 2 ^ 23 : Nat) : ℚ) / 2 ^ 149
            else (2 ^ 23 + ((bits % 2 ^ 23 : Nat) : ℚ)) * 2 ^ (bits / 2 ^ 23 % 2 ^ 8) / 2 ^ 150) ≠ 0 := by
          split
          · have : ((bits % 2 ^ 23 : Nat) : ℚ) ≠ 0 := by
              rw [Nat.cast_ne_zero]; omega
            exact div_ne_zero this (by norm_num)
          · have : (0 : ℚ) ≤ ((bits % 2 ^ 23 : Nat) : ℚ) := Nat.cast_nonneg _
            refine div_ne_zero (mul_ne_zero (ne_of_gt (by linarith)) (pow_ne_zero _ (by norm_num))) (by norm_num)
        have hsg : (if bits / 2 ^ 31 % 2 = 1 then (-1 : ℚ) else 1) ≠ 0 := by split <;> norm_num
        exact mul_ne_zero hsg hp h1.symm

/-- **C160, double precision**: a pattern of 64 bits is kept bit for bit; a zero of either sign becomes the integer zero. -/
theorem C160_double (env : Env) (bits : Nat) (hb : bits < 2 ^ 64) (rest : Bytes) (f : Nat) :
    parseBinary env (f + 1) ((6 :: le 8 bits) ++ rest) =
      .ok (.node [] (if bits % 2 ^ 63 = 0 then .uint false 0 else .dbl bits) [], ⟨rest, [], 0⟩) := by
  have hr := readN_append' env 8 (le 8 bits) rest [] 0 (le_length 8 bits)
  have e : ofDouble bits = if bits % 2 ^ 63 = 0 then .uint false 0 else .dbl bits := by
    unfold ofDouble
    by_cases h : bits % 2 ^ 63 = 0
    · rw [if_pos h, if_pos (by omega)]
    · rw [if_neg h, if_neg (by omega)]
  rw [← e]
  unfold parseBinary
  rw [parseItem]
  simp [next, hr, ofLe_le 8 bits (by omega)]

/-- The smallest positive number of single precision, 1.5, and a signalling NaN. -/
example : widen 1 = 0x36A0000000000000 ∧ widen 0x3FC00000 = 0x3FF8000000000000 ∧ widen 0xFF800001 = 0xFFF8000020000000 := by decide
