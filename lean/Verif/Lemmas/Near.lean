import Verif.Lemmas.Fp
/-!
# Relative errors of sequences of rounded operations
-/
set_option exponentiation.threshold 3000
namespace Imt.Fp
open Imt
open Imt.Conv (Dbl)

/-- Unit roundoff. -/
abbrev uu : ℚ := 1 / 2 ^ 53

/-- `x` is `y` with `n` relative errors of at most 2^-53. -/
structure Near (n : Nat) (x y : ℚ) : Prop where
  lo : y * (1 - uu) ^ n ≤ x
  hi : x ≤ y * (1 + uu) ^ n

theorem uu_pos : (0 : ℚ) < uu := by norm_num
theorem uu_lt : uu < (1 : ℚ) := by norm_num
theorem one_sub_pos : (0 : ℚ) < 1 - uu := by norm_num
theorem one_add_ge : (1 : ℚ) ≤ 1 + uu := by norm_num

theorem Near.refl (y : ℚ) : Near 0 y y := ⟨by simp, by simp⟩

theorem Near.mono {n m : Nat} {x y : ℚ} (h : Near n x y) (hy : 0 ≤ y) (hnm : n ≤ m) : Near m x y :=
  ⟨le_trans (mul_le_mul_of_nonneg_left (pow_le_pow_of_le_one (le_of_lt one_sub_pos) (by norm_num) hnm) hy) h.lo,
   le_trans h.hi (mul_le_mul_of_nonneg_left (pow_le_pow_right₀ one_add_ge hnm) hy)⟩

theorem Near.nonneg {n : Nat} {x y : ℚ} (h : Near n x y) (hy : 0 ≤ y) : 0 ≤ x :=
  le_trans (mul_nonneg hy (pow_nonneg (le_of_lt one_sub_pos) _)) h.lo

theorem Near.pos {n : Nat} {x y : ℚ} (h : Near n x y) (hy : 0 < y) : 0 < x :=
  lt_of_lt_of_le (mul_pos hy (pow_pos one_sub_pos _)) h.lo

theorem Near.zero {n : Nat} {x : ℚ} (h : Near n x 0) : x = 0 := by
  have h1 := h.lo
  have h2 := h.hi
  rw [zero_mul] at h1 h2
  linarith

theorem Near.mul {n m : Nat} {x y x' y' : ℚ} (h : Near n x y) (h' : Near m x' y') (hy : 0 ≤ y) (hy' : 0 ≤ y') :
    Near (n + m) (x * x') (y * y') := by
  constructor
  · calc y * y' * (1 - uu) ^ (n + m) = (y * (1 - uu) ^ n) * (y' * (1 - uu) ^ m) := by rw [pow_add]; ring
      _ ≤ x * x' := mul_le_mul h.lo h'.lo (mul_nonneg hy' (pow_nonneg (le_of_lt one_sub_pos) _)) (h.nonneg hy)
  · calc x * x' ≤ (y * (1 + uu) ^ n) * (y' * (1 + uu) ^ m) :=
          mul_le_mul h.hi h'.hi (h'.nonneg hy') (le_trans (h.nonneg hy) h.hi)
      _ = _ := by rw [pow_add]; ring

theorem Near.add {n : Nat} {x y x' y' : ℚ} (h : Near n x y) (h' : Near n x' y') : Near n (x + x') (y + y') :=
  ⟨by rw [add_mul]; exact add_le_add h.lo h'.lo, by rw [add_mul]; exact add_le_add h.hi h'.hi⟩

theorem Near.trans {n m : Nat} {x y z : ℚ} (h : Near n x y) (h' : Near m y z) : Near (n + m) x z := by
  constructor
  · calc z * (1 - uu) ^ (n + m) = z * (1 - uu) ^ m * (1 - uu) ^ n := by rw [pow_add]; ring
      _ ≤ y * (1 - uu) ^ n := mul_le_mul_of_nonneg_right h'.lo (pow_nonneg (le_of_lt one_sub_pos) _)
      _ ≤ x := h.lo
  · calc x ≤ y * (1 + uu) ^ n := h.hi
      _ ≤ z * (1 + uu) ^ m * (1 + uu) ^ n := mul_le_mul_of_nonneg_right h'.hi (by positivity)
      _ = _ := by rw [pow_add]; ring

theorem inv_near {m : Nat} {x y : ℚ} (h : Near m x y) (hy : 0 < y) : Near (2 * m) x⁻¹ y⁻¹ := by
  have hx := h.pos hy
  have a1 : (1 - uu) * (1 + uu) ^ 2 ≥ 1 := by norm_num
  have a2 : (1 + uu) * (1 - uu) ≤ 1 := by norm_num
  constructor
  · rw [← div_eq_inv_mul, div_le_iff₀ hy, ← div_eq_inv_mul, le_div_iff₀ hx]
    calc (1 - uu) ^ (2 * m) * x ≤ (1 - uu) ^ (2 * m) * (y * (1 + uu) ^ m) :=
          mul_le_mul_of_nonneg_left h.hi (pow_nonneg (le_of_lt one_sub_pos) _)
      _ = y * (((1 + uu) * (1 - uu)) ^ m * (1 - uu) ^ m) := by rw [mul_pow, two_mul, pow_add]; ring
      _ ≤ y * (1 * 1) := by
          refine mul_le_mul_of_nonneg_left ?_ (le_of_lt hy)
          exact mul_le_mul (pow_le_one₀ (by norm_num) a2) (pow_le_one₀ (le_of_lt one_sub_pos) (by norm_num))
            (pow_nonneg (le_of_lt one_sub_pos) _) (by norm_num)
      _ = y := by ring
  · rw [← div_eq_inv_mul, le_div_iff₀ hy, ← div_eq_inv_mul, div_le_iff₀ hx]
    calc y = y * 1 := (mul_one _).symm
      _ ≤ y * ((1 - uu) * (1 + uu) ^ 2) ^ m := mul_le_mul_of_nonneg_left (one_le_pow₀ a1) (le_of_lt hy)
      _ = (1 + uu) ^ (2 * m) * (y * (1 - uu) ^ m) := by rw [mul_pow, ← pow_mul]; ring
      _ ≤ (1 + uu) ^ (2 * m) * x := mul_le_mul_of_nonneg_left h.lo (by positivity)

theorem Near.div {n m : Nat} {x y x' y' : ℚ} (h : Near n x y) (h' : Near m x' y') (hy : 0 ≤ y) (hy' : 0 < y') :
    Near (n + 2 * m) (x / x') (y / y') := by
  rw [div_eq_mul_inv, div_eq_mul_inv]
  exact h.mul (inv_near h' hy') hy (le_of_lt (inv_pos.2 hy'))

/-- Rounding a number that is zero or normal. -/
theorem rnd_near {q r : ℚ} (h : rnd q = .fin r) (hq : q = 0 ∨ 1 / 2 ^ 1022 ≤ q) : Near 1 r q := by
  rcases hq with rfl | hq
  · rw [rnd_zero] at h; cases h
    exact ⟨by simp, by simp⟩
  · have hpos : 0 < q := lt_of_lt_of_le (by positivity) hq
    have he := rnd_err h
    have hs := expo_spec q hpos.ne'
    rw [abs_of_pos hpos] at hs
    have hge : -1022 ≤ expo q := by
      by_contra hc
      have h1 : (2 : ℚ) ^ (expo q + 1) ≤ 2 ^ (-1022 : Int) := zpow2_le (by omega)
      have h2 : (2 : ℚ) ^ (-1022 : Int) = 1 / 2 ^ 1022 := by rw [zpow_neg, one_div]; norm_cast
      rw [h2] at h1
      linarith [hs.2]
    rw [ulp_eq, max_eq_left hge, zpow_sub₀ (by norm_num)] at he
    have hu : (2 : ℚ) ^ expo q / 2 ^ (52 : Int) / 2 ≤ q * uu := by
      have : (2 : ℚ) ^ (52 : Int) = 2 ^ 52 := by norm_cast
      rw [this, div_div, div_eq_mul_one_div]
      have h3 : (1 : ℚ) / (2 ^ 52 * 2) = uu := by norm_num
      rw [h3]
      exact mul_le_mul_of_nonneg_right hs.1 (le_of_lt uu_pos)
    have he2 := abs_le.1 (le_trans he hu)
    constructor <;> rw [pow_one] <;> linarith [he2.1, he2.2]

theorem rnd_nonneg {q : ℚ} (h : 0 ≤ q) : (∃ r, rnd q = .fin r ∧ 0 ≤ r) ∨ rnd q = .inf false := by
  rcases eq_or_lt_of_le h with rfl | h
  · exact Or.inl ⟨0, rnd_zero, le_refl _⟩
  · rw [rnd_def h.ne']
    split
    · exact Or.inl ⟨_, rfl, rho_nonneg h⟩
    · right; rw [decide_eq_false (not_lt.2 (le_of_lt h))]

/-- The largest double. -/
def maxDbl : ℚ := 2 ^ 1024 - 2 ^ 971

theorem rnd_max : rnd maxDbl = .fin maxDbl := by
  have := rnd_exact (2 ^ 53 - 1) 971 (by norm_num) (by norm_num) (by norm_num)
  have e : (((2 ^ 53 - 1 : Int)) : ℚ) * 2 ^ (971 : Int) = maxDbl := by unfold maxDbl; norm_num
  rwa [e] at this

theorem rnd_finite {q : ℚ} (h : 0 ≤ q) (hm : q ≤ maxDbl) : ∃ r, rnd q = .fin r ∧ 0 ≤ r ∧ r ≤ maxDbl :=
  rnd_mono h hm rnd_max

theorem expo_of_ge {q : ℚ} (hq : 0 < q) {k : Int} (h : (2 : ℚ) ^ k ≤ q) : k ≤ expo q := by
  have := (expo_spec q hq.ne').2
  rw [abs_of_pos hq] at this
  by_contra hc
  have h1 : (2 : ℚ) ^ (expo q + 1) ≤ 2 ^ k := zpow2_le (by omega)
  linarith

theorem expo_of_lt {q : ℚ} (hq : 0 < q) {k : Int} (h : q < (2 : ℚ) ^ k) : expo q < k := by
  have := (expo_spec q hq.ne').1
  rw [abs_of_pos hq] at this
  by_contra hc
  have h1 : (2 : ℚ) ^ k ≤ 2 ^ expo q := zpow2_le (by omega)
  linarith

theorem maxDbl_ge : (2 : ℚ) ^ (1023 : Int) ≤ maxDbl := by unfold maxDbl; norm_num
theorem maxDbl_pos : (0 : ℚ) < maxDbl := lt_of_lt_of_le (by positivity) maxDbl_ge

/-- Rounding overflows only from half a step above the largest double. -/
theorem rnd_finite' {q : ℚ} (h : 0 ≤ q) (hm : q < 2 ^ 1024 - 2 ^ 970) : ∃ r, rnd q = .fin r ∧ 0 ≤ r ∧ r ≤ maxDbl := by
  rcases le_or_gt q maxDbl with hle | hgt
  · exact rnd_finite h hle
  · have hq : 0 < q := lt_trans maxDbl_pos hgt
    have hlt : q < (2 : ℚ) ^ (1024 : Int) := lt_trans hm (by norm_num)
    have he : expo q = 1023 := by
      have h1 := expo_of_ge hq (le_trans maxDbl_ge (le_of_lt hgt))
      have h2 := expo_of_lt hq hlt
      omega
    have hu : ulp q = 2 ^ (971 : Int) := by rw [ulp_eq, he]; norm_num
    have hup : (0 : ℚ) < 2 ^ (971 : Int) := by positivity
    have hk : roundEven (q / ulp q) = 2 ^ 53 - 1 := by
      have hfl : ⌊q / ulp q⌋ = 2 ^ 53 - 1 := by
        rw [Int.floor_eq_iff, hu]
        constructor
        · rw [le_div_iff₀ hup]
          refine le_trans (le_of_eq ?_) (le_of_lt hgt)
          unfold maxDbl; norm_num
        · rw [div_lt_iff₀ hup]
          refine lt_of_lt_of_le hlt ?_
          norm_num
      rcases roundEven_floor (q / ulp q) with ⟨e, -⟩ | ⟨-, e⟩
      · rw [e, hfl]
      · exfalso
        rw [hfl, hu, le_sub_iff_add_le, le_div_iff₀ hup] at e
        have : (2 : ℚ) ^ 1024 - 2 ^ 970 ≤ (1 / 2 + ((2 ^ 53 - 1 : Int) : ℚ)) * 2 ^ (971 : Int) := by norm_num
        exact absurd (lt_of_le_of_lt (le_trans this e) hm) (lt_irrefl _)
    have hrho : rho q = maxDbl := by unfold rho; rw [hk, hu]; unfold maxDbl; norm_num
    refine ⟨maxDbl, ?_, le_of_lt maxDbl_pos, le_refl _⟩
    rw [rnd_def hq.ne', hrho, if_pos]
    rw [abs_of_pos maxDbl_pos]; unfold maxDbl; norm_num

theorem rnd_fin_le {q r : ℚ} (hq : 0 ≤ q) (h : rnd q = .fin r) : r ≤ maxDbl := by
  rcases le_or_gt q maxDbl with hle | hgt
  · obtain ⟨r', h1, -, h2⟩ := rnd_finite hq hle
    rw [h] at h1; cases h1; exact h2
  · have hq : 0 < q := lt_trans maxDbl_pos hgt
    obtain ⟨hr, hl⟩ := rnd_fin hq.ne' h
    have h1 := expo_of_ge hq (le_trans maxDbl_ge (le_of_lt hgt))
    have hr0 := rho_nonneg hq
    rw [abs_of_nonneg hr0] at hl
    have h2 := rho_ge q hq (by omega)
    have he : expo q = 1023 := by
      by_contra hc
      have h3 : (2 : ℚ) ^ (1024 : Int) ≤ 2 ^ expo q := zpow2_le (by omega)
      have h4 : (2 : ℚ) ^ (1024 : Int) = 2 ^ 1024 := by norm_cast
      rw [h4] at h3
      exact absurd (lt_of_le_of_lt (le_trans h3 h2) hl) (lt_irrefl _)
    have hu : ulp q = 2 ^ (971 : Int) := by rw [ulp_eq, he]; norm_num
    rw [hr]
    unfold rho at hl ⊢
    rw [hu] at hl ⊢
    have hk : roundEven (q / 2 ^ (971 : Int)) ≤ 2 ^ 53 - 1 := by
      by_contra hc
      have h5 : ((2 ^ 53 : Int) : ℚ) ≤ (roundEven (q / 2 ^ (971 : Int)) : ℚ) := Int.cast_le.2 (by omega)
      have h6 := mul_le_mul_of_nonneg_right h5 (by positivity : (0 : ℚ) ≤ 2 ^ (971 : Int))
      have h7 : ((2 ^ 53 : Int) : ℚ) * 2 ^ (971 : Int) = 2 ^ 1024 := by norm_num
      rw [h7] at h6
      exact absurd (lt_of_le_of_lt h6 hl) (lt_irrefl _)
    have h8 : (roundEven (q / 2 ^ (971 : Int)) : ℚ) ≤ ((2 ^ 53 - 1 : Int) : ℚ) := Int.cast_le.2 hk
    refine le_trans (mul_le_mul_of_nonneg_right h8 (by positivity)) (le_of_eq ?_)
    unfold maxDbl; norm_num

/-- Overflow. -/
theorem rnd_inf_ge {q : ℚ} (hq : 0 ≤ q) (h : rnd q = .inf false) : 2 ^ 1024 - 2 ^ 970 ≤ q := by
  by_contra hc
  obtain ⟨r, h1, -⟩ := rnd_finite' hq (not_le.1 hc)
  rw [h] at h1; cases h1

/-- Doubles are rounded to themselves. -/
theorem rnd_idem {q r : ℚ} (h : rnd q = .fin r) : rnd r = .fin r := by
  by_cases hq : q = 0
  · subst hq; rw [rnd_zero] at h; cases h; exact rnd_zero
  obtain ⟨hr, hl⟩ := rnd_fin hq h
  by_cases hr0 : r = 0
  · rw [hr0]; exact rnd_zero
  have hfix : rho r = r := by
    obtain ⟨k, hk⟩ : ∃ k, k = roundEven (q / ulp q) := ⟨_, rfl⟩
    obtain ⟨j, hj⟩ : ∃ j : Int, j = max (expo q) (-1022) - 52 := ⟨_, rfl⟩
    have hj0 : -1074 ≤ j := by have := le_max_right (expo q) (-1022); omega
    have hrk : r = (k : ℚ) * 2 ^ j := by rw [hr]; unfold rho; rw [← hk, ulp_eq, ← hj]
    have hk0 : k ≠ 0 := by rintro rfl; apply hr0; rw [hrk]; simp
    have hkb : |k| ≤ 2 ^ 53 := by
      have h1 : |q / ulp q| ≤ 2 ^ 53 := by
        rw [abs_div, abs_of_pos (ulp_pos q), div_le_iff₀ (ulp_pos q), ulp_eq, ← hj]
        have h2 := (expo_spec q hq).2
        have h3 : (2 : ℚ) ^ (expo q + 1) ≤ 2 ^ (53 + j) := zpow2_le (by have := le_max_left (expo q) (-1022); omega)
        have h4 : (2 : ℚ) ^ (53 + j) = 2 ^ 53 * 2 ^ j := by rw [zpow_add₀ (by norm_num)]; norm_cast
        rw [h4] at h3
        exact le_of_lt (lt_of_lt_of_le h2 h3)
      rw [abs_le] at h1 ⊢
      have m1 := roundEven_mono (a := ((-2 ^ 53 : Int) : ℚ)) (b := q / ulp q) (by push_cast; exact h1.1)
      have m2 := roundEven_mono (a := q / ulp q) (b := ((2 ^ 53 : Int) : ℚ)) (by push_cast; exact h1.2)
      rw [roundEven_int] at m1 m2
      rw [hk]; exact ⟨m1, m2⟩
    rcases lt_or_eq_of_le hkb with hlt | heq
    · rw [hrk]; exact rho_exact k j hlt hj0 hk0
    · have hj53 : (2 : ℚ) ^ (j + 53) = 2 ^ j * 2 ^ 53 := by
        rw [zpow_add₀ (by norm_num)]; norm_cast
      rcases (abs_eq (by norm_num)).1 heq with e | e
      · have : r = ((1 : Int) : ℚ) * 2 ^ (j + 53) := by rw [hrk, e, hj53]; push_cast; ring
        rw [this]; exact rho_exact 1 (j + 53) (by norm_num) (by omega) (by norm_num)
      · have : r = ((-1 : Int) : ℚ) * 2 ^ (j + 53) := by rw [hrk, e, hj53]; push_cast; ring
        rw [this]; exact rho_exact (-1) (j + 53) (by norm_num) (by omega) (by norm_num)
  rw [rnd_def hr0, hfix, if_pos]
  rw [hr]; exact hl

/-- Rounding an integer gives an integer. -/
theorem rnd_isInt {n : Int} {r : ℚ} (h : rnd (n : ℚ) = .fin r) : ∃ m : Int, r = m := by
  by_cases h0 : n = 0
  · subst h0
    rw [Int.cast_zero, rnd_zero] at h; cases h
    exact ⟨0, by simp⟩
  by_cases hs : |n| < 2 ^ 53
  · rw [rnd_int n hs] at h; cases h; exact ⟨n, rfl⟩
  · have hn0 : (n : ℚ) ≠ 0 := by exact_mod_cast h0
    have hr := (rnd_fin hn0 h).1
    have hsp := (expo_spec (n : ℚ) hn0).2
    have h53 : (2 : ℚ) ^ (53 : Int) ≤ |(n : ℚ)| := by
      have : (2 ^ 53 : Int) ≤ |n| := not_lt.1 hs
      exact_mod_cast this
    have he : 52 ≤ expo (n : ℚ) := by
      by_contra hc
      have h1 : (2 : ℚ) ^ (expo (n : ℚ) + 1) ≤ 2 ^ (53 : Int) := zpow2_le (by omega)
      linarith
    obtain ⟨k, hk⟩ : ∃ k : Nat, expo (n : ℚ) - 52 = k := Int.eq_ofNat_of_zero_le (by omega)
    refine ⟨roundEven ((n : ℚ) / ulp n) * 2 ^ k, ?_⟩
    rw [hr]
    unfold rho
    push_cast
    congr 1
    rw [ulp_eq, max_eq_left (by omega), hk, zpow_natCast]

theorem one_add_pow_le {n : Nat} (h : n ≤ 2 ^ 52) : (1 + uu) ^ n ≤ 1 + n * (2 * uu) := by
  induction n with
  | zero => simp
  | succ n ih =>
    have ih := ih (by omega)
    have hn : (n : ℚ) ≤ 2 ^ 52 := by exact_mod_cast (by omega : n ≤ 2 ^ 52)
    have hu := uu_pos
    rw [pow_succ]
    calc (1 + uu) ^ n * (1 + uu) ≤ (1 + n * (2 * uu)) * (1 + uu) := mul_le_mul_of_nonneg_right ih (by positivity)
      _ = 1 + (2 * n + 1) * uu + (n * (2 * uu)) * uu := by ring
      _ ≤ 1 + (2 * n + 1) * uu + (2 ^ 52 * (2 * uu)) * uu := by gcongr
      _ = 1 + (2 * n + 2) * uu := by norm_num; ring
      _ = _ := by push_cast; ring

theorem one_sub_pow_ge (n : Nat) : 1 - n * uu ≤ (1 - uu) ^ n := by
  have := one_add_mul_le_pow (a := -uu) (by norm_num) n
  calc 1 - n * uu = 1 + n * (-uu) := by ring
    _ ≤ (1 + -uu) ^ n := this
    _ = _ := by rw [← sub_eq_add_neg]

/-- Counted errors as one relative error. -/
theorem Near.err {n : Nat} {x y : ℚ} (h : Near n x y) (hy : 0 ≤ y) (hn : n ≤ 2 ^ 52) : |x - y| ≤ y * (n / 2 ^ 52) := by
  have h1 := h.lo
  have h2 := h.hi
  have a1 : y * (1 - n * uu) ≤ y * (1 - uu) ^ n := mul_le_mul_of_nonneg_left (one_sub_pow_ge n) hy
  have a2 : y * (1 + uu) ^ n ≤ y * (1 + n * (2 * uu)) := mul_le_mul_of_nonneg_left (one_add_pow_le hn) hy
  have e : (2 : ℚ) * uu = 1 / 2 ^ 52 := by norm_num
  have a3 : y * (1 + n * (2 * uu)) = y + y * (n / 2 ^ 52) := by rw [e]; ring
  have a4 : y * (1 - n * uu) = y - y * (n * uu) := by ring
  have a5 : y * (n * uu) ≤ y * (n / 2 ^ 52) := by
    apply mul_le_mul_of_nonneg_left _ hy
    rw [div_eq_mul_one_div, ← e]
    have : (0 : ℚ) ≤ n := by positivity
    have := uu_pos
    nlinarith
  rw [a3] at a2
  rw [a4] at a1
  have b1 := le_trans a1 h1
  have b2 := le_trans h2 a2
  clear h1 h2 a1 a2 a3 a4 e
  generalize y * (n / 2 ^ 52 : ℚ) = z at *
  generalize y * (n * uu) = w at *
  rw [abs_le]
  constructor <;> linarith

end Imt.Fp
