import Verif.Lemmas.WriteDouble
import Mathlib.Data.Int.Log
/-!
# Printing of doubles
-/
set_option exponentiation.threshold 3000
namespace Imt.Props
open Imt Imt.Spec Imt.Fp
open Imt.Conv (Dbl)

/-! ## Assumptions about the C library -/

/-- `floor(log10(a))` is the decimal exponent, up to a relative error of 2^-40 of the argument. -/
def LgOk (lib : Lib) : Prop := ∀ a : ℚ, 0 < a → (10 : ℚ) ^ lib.lg a ≤ a * (1 + 1 / 2 ^ 40) ∧ a < 10 ^ (lib.lg a + 1) * (1 + 1 / 2 ^ 40)

/-- `pow(0.1, i)` is within 2^-40 of the power wherever that power is in the range of doubles. -/
def Pow01Ok (lib : Lib) : Prop := ∀ i : Int, -308 ≤ i → i ≤ 308 → ∃ y : ℚ, lib.pow01 i = .fin y ∧ |y * 10 ^ i - 1| ≤ 1 / 2 ^ 40

/-- A library whose functions are rounded correctly. -/
def exactLib : Lib where
  pow10 n := rnd ((10 : ℚ) ^ n)
  pow01 i := rnd ((10 : ℚ) ^ (-i))
  lg a := Int.log 10 a

theorem exactLib_lg : LgOk exactLib := by
  intro a ha
  have h1 : (10 : ℚ) ^ Int.log 10 a ≤ a := by exact_mod_cast Int.zpow_log_le_self (b := 10) (by norm_num) ha
  have h2 : a < (10 : ℚ) ^ (Int.log 10 a + 1) := by exact_mod_cast Int.lt_zpow_succ_log_self (b := 10) (by norm_num) a
  refine ⟨?_, ?_⟩
  · calc (10 : ℚ) ^ exactLib.lg a ≤ a * 1 := by rw [mul_one]; exact h1
      _ ≤ _ := mul_le_mul_of_nonneg_left (by norm_num) (le_of_lt ha)
  · calc a < 10 ^ (exactLib.lg a + 1) * 1 := by rw [mul_one]; exact h2
      _ ≤ _ := mul_le_mul_of_nonneg_left (by norm_num) (by positivity)

theorem ten308 : (10 : ℚ) ^ (308 : Nat) < 2 ^ 1024 - 2 ^ 971 := by norm_num

theorem exactLib_pow : Pow01Ok exactLib := by
  intro i h1 h2
  have hpos : (0 : ℚ) < 10 ^ (-i) := by positivity
  have hle : (10 : ℚ) ^ (-i) ≤ 10 ^ (308 : Nat) := by
    rw [← zpow_natCast]
    exact zpow_le_zpow_right₀ (by norm_num) (by push_cast; omega)
  have hge : (1 : ℚ) / 10 ^ (308 : Nat) ≤ 10 ^ (-i) := by
    rw [one_div, ← zpow_natCast, ← zpow_neg]
    exact zpow_le_zpow_right₀ (by norm_num) (by push_cast; omega)
  have hb : rnd (((2 ^ 53 - 1 : Int) : ℚ) * 2 ^ (971 : Int)) = .fin (((2 ^ 53 - 1 : Int) : ℚ) * 2 ^ (971 : Int)) :=
    rnd_exact _ _ (by norm_num) (by norm_num) (by norm_num)
  obtain ⟨y, hy, y0, -⟩ := rnd_mono (le_of_lt hpos) (by
    refine le_trans hle (le_trans (le_of_lt ten308) ?_)
    norm_num : (10 : ℚ) ^ (-i) ≤ ((2 ^ 53 - 1 : Int) : ℚ) * 2 ^ (971 : Int)) hb
  refine ⟨y, hy, ?_⟩
  have he := rnd_rel hy
  rw [abs_of_pos hpos] at he
  have hz : (10 : ℚ) ^ (-i) * 10 ^ i = 1 := by rw [← zpow_add₀ (by norm_num)]; simp
  have hi : (0 : ℚ) < 10 ^ i := by positivity
  have hi2 : (10 : ℚ) ^ i ≤ 10 ^ (308 : Nat) := by
    rw [← zpow_natCast]
    exact zpow_le_zpow_right₀ (by norm_num) (by push_cast; omega)
  have : y * 10 ^ i - 1 = (y - 10 ^ (-i)) * 10 ^ i := by rw [sub_mul, hz]
  rw [this, abs_mul, abs_of_pos hi]
  calc |y - 10 ^ (-i)| * 10 ^ i ≤ ((10 : ℚ) ^ (-i) * (1 / 2 ^ 53) + 1 / 2 ^ 1075) * 10 ^ i :=
        mul_le_mul_of_nonneg_right he (le_of_lt hi)
    _ = ((10 : ℚ) ^ (-i) * 10 ^ i) * (1 / 2 ^ 53) + 1 / 2 ^ 1075 * 10 ^ i := by ring
    _ ≤ 1 * (1 / 2 ^ 53) + 1 / 2 ^ 1075 * 10 ^ (308 : Nat) := by
        rw [hz]
        exact add_le_add (le_refl _) (mul_le_mul_of_nonneg_left hi2 (by positivity))
    _ ≤ 1 / 2 ^ 40 := by norm_num

/-! ## C105 -/

/-- C105: whatever is printed for a finite double is a JSON number with the right sign; no assumption about the C library. -/
theorem C105_token (lib : Lib) (u : Bool) (prec : Nat) (q : ℚ) (t : Bytes) (h : writeDouble lib u prec (.fin q) = .ok t) :
    ∃ tok : NumTok, tok.WF ∧ tok.text = t ∧ (tok.neg = true ↔ q < 0) := by
  by_cases hq : q = 0
  · subst hq
    have : t = [48] := by
      unfold writeDouble at h
      dsimp only at h
      rw [if_pos rfl] at h
      exact (Res.ok.inj h).symm
    subst this
    refine ⟨⟨false, [48], none, none⟩, ⟨⟨⟨by simp, by decide⟩, fun _ => rfl⟩, by simp, by simp⟩, rfl, by simp⟩
  · rcases writeDouble_fin lib u prec q hq with ⟨x, M, h1, h2, h3, h4, h5, h6⟩ | ⟨h1, -⟩
    · rw [h] at h6
      obtain ⟨o1, o2, o3⟩ := outTok_spec (decide (q < 0)) (min prec 9) (carry (min prec 9) ⌊x⌋.toNat M (scale lib |q|).1).1
        (carry (min prec 9) ⌊x⌋.toNat M (scale lib |q|).1).2.1 (carry (min prec 9) ⌊x⌋.toNat M (scale lib |q|).1).2.2
        (carry_lt _ _ _ _ h4)
      refine ⟨_, o1, ?_, by unfold outTok; simp⟩
      rw [o2, Res.ok.inj h6]
      simp
    · rw [h1] at h; cases h

/-- Infinities are printed as the strings the parser reads as infinities; at most nine decimals are used. -/
theorem C105_infinity (lib : Lib) (u : Bool) (prec : Nat) (s : Bool) : writeDouble lib u prec (.inf s) =
    .ok (Ser.writeString u (if s then [0x2D, 0xE2, 0x88, 0x9E] else [0xE2, 0x88, 0x9E])) := rfl

/-- C105 does not hold for NaN: it is printed as infinity (serializer.h:272-276). -/
theorem C105_violation_nan (lib : Lib) (u : Bool) (prec : Nat) :
    writeDouble lib u prec .nan = writeDouble lib u prec (.inf false) := rfl

example : writeDouble exactLib true 4 (.fin (-12345 / 16)) = .ok (ascii "-771.5625") := by decide +kernel
example : writeDouble exactLib true 4 (.fin (3 * 2 ^ 80)) = .ok (ascii "3.6268e+24") := by decide +kernel

/-! ## Accuracy -/

theorem lg_range {lib : Lib} (hl : LgOk lib) {a : ℚ} (h0 : 1 / 10 ^ 308 * (1 + 1 / 2 ^ 39) ≤ a) (h1 : a < 2 ^ 1024) :
    -308 ≤ lib.lg a ∧ lib.lg a ≤ 308 := by
  have hp : 0 < a := lt_of_lt_of_le (by positivity) h0
  obtain ⟨g1, g2⟩ := hl a hp
  constructor
  · by_contra hc
    have : (10 : ℚ) ^ (lib.lg a + 1) ≤ 10 ^ (-308 : Int) := zpow_le_zpow_right₀ (by norm_num) (by omega)
    have h3 : (10 : ℚ) ^ (-308 : Int) = 1 / 10 ^ 308 := by rw [zpow_neg, one_div]; norm_cast
    rw [h3] at this
    have h4 : (10 : ℚ) ^ (lib.lg a + 1) * (1 + 1 / 2 ^ 40) ≤ 1 / 10 ^ 308 * (1 + 1 / 2 ^ 40) :=
      mul_le_mul_of_nonneg_right this (by norm_num)
    have h5 : (1 : ℚ) / 10 ^ 308 * (1 + 1 / 2 ^ 40) ≤ 1 / 10 ^ 308 * (1 + 1 / 2 ^ 39) :=
      mul_le_mul_of_nonneg_left (by norm_num) (by positivity)
    linarith
  · by_contra hc
    have : (10 : ℚ) ^ (309 : Int) ≤ 10 ^ lib.lg a := zpow_le_zpow_right₀ (by norm_num) (by omega)
    have h2 : a * (1 + 1 / 2 ^ 40) ≤ 2 ^ 1024 * (1 + 1 / 2 ^ 40) := mul_le_mul_of_nonneg_right (le_of_lt h1) (by norm_num)
    have h3 : (2 : ℚ) ^ 1024 * (1 + 1 / 2 ^ 40) < 10 ^ (309 : Int) := by norm_num
    exact absurd (lt_of_le_of_lt (le_trans this (le_trans g1 h2)) h3) (lt_irrefl _)

/-- The scaled number. -/
theorem scaled {lib : Lib} (hl : LgOk lib) (hp : Pow01Ok lib) {a : ℚ} (h0 : 1 / 10 ^ 308 * (1 + 1 / 2 ^ 39) ≤ a) (h1 : a < 2 ^ 1024) :
    ((scale lib a).1 = 0 ∧ (scale lib a).2 = .fin a ∧ a < 2 * 10 ^ 8) ∨
    ((scale lib a).1 = lib.lg a ∧ ∃ x, (scale lib a).2 = .fin x ∧ 0 ≤ x ∧ x ≤ 10 + 1 / 2 ^ 35 ∧
      |x - a * 10 ^ (-lib.lg a)| ≤ 1 / 2 ^ 36) := by
  have ha : 0 < a := lt_of_lt_of_le (by positivity) h0
  obtain ⟨g1, g2⟩ := hl a ha
  obtain ⟨r1, r2⟩ := lg_range hl h0 h1
  unfold scale
  split
  · next hc =>
    left
    refine ⟨rfl, rfl, ?_⟩
    have : (10 : ℚ) ^ (lib.lg a + 1) ≤ 10 ^ (8 : Int) := zpow_le_zpow_right₀ (by norm_num) (by omega)
    have h8 : (10 : ℚ) ^ (8 : Int) = 10 ^ 8 := by norm_cast
    rw [h8] at this
    have h4 : (10 : ℚ) ^ (lib.lg a + 1) * (1 + 1 / 2 ^ 40) ≤ 10 ^ 8 * (1 + 1 / 2 ^ 40) := mul_le_mul_of_nonneg_right this (by norm_num)
    have : (10 : ℚ) ^ 8 * (1 + 1 / 2 ^ 40) < 2 * 10 ^ 8 := by norm_num
    linarith
  · right
    refine ⟨rfl, ?_⟩
    dsimp only
    obtain ⟨y, hy, ey⟩ := hp _ r1 r2
    rw [hy, mul]
    have hT : (0 : ℚ) < 10 ^ lib.lg a := by positivity
    have hTi : (10 : ℚ) ^ (-lib.lg a) * 10 ^ lib.lg a = 1 := by rw [← zpow_add₀ (by norm_num)]; simp
    have hT1 : (10 : ℚ) ^ (lib.lg a + 1) = 10 ^ lib.lg a * 10 := by rw [zpow_add₀ (by norm_num), zpow_one]
    rw [hT1] at g2
    generalize (10 : ℚ) ^ lib.lg a = T at *
    generalize (10 : ℚ) ^ (-lib.lg a) = U at *
    have hU : 0 < U := by
      by_contra hc
      nlinarith
    -- b = a U in [1/(1+ε), 10 (1+ε)); y = U (1+δ)
    obtain ⟨d, hd⟩ : ∃ d, d = y * T - 1 := ⟨_, rfl⟩
    rw [← hd, abs_le] at ey
    have hyU : y = U * (1 + d) := by
      rw [hd]
      calc y = y * (U * T) := by rw [hTi, mul_one]
        _ = _ := by ring
    have hb0 : 0 < a * U := mul_pos ha hU
    have hb1 : a * U < 10 * (1 + 1 / 2 ^ 40) := by
      calc a * U < T * 10 * (1 + 1 / 2 ^ 40) * U := mul_lt_mul_of_pos_right g2 hU
        _ = (U * T) * (10 * (1 + 1 / 2 ^ 40)) := by ring
        _ = _ := by rw [hTi, one_mul]
    have hay : a * y = a * U * (1 + d) := by rw [hyU]; ring
    generalize a * U = b at *
    have hp0 : 0 ≤ b * (1 + d) := mul_nonneg (le_of_lt hb0) (by norm_num at ey; linarith [ey.1])
    have hbd1 : b * d ≤ 10 * (1 + 1 / 2 ^ 40) * (1 / 2 ^ 40) :=
      le_trans (mul_le_mul_of_nonneg_left ey.2 (le_of_lt hb0)) (mul_le_mul_of_nonneg_right (le_of_lt hb1) (by norm_num))
    have hbd2 : -(10 * (1 + 1 / 2 ^ 40) * (1 / 2 ^ 40)) ≤ b * d := by
      have h3 : b * (-(1 / 2 ^ 40)) ≤ b * d := mul_le_mul_of_nonneg_left ey.1 (le_of_lt hb0)
      have h4 : b * (1 / 2 ^ 40) ≤ 10 * (1 + 1 / 2 ^ 40) * (1 / 2 ^ 40) := mul_le_mul_of_nonneg_right (le_of_lt hb1) (by norm_num)
      linarith
    have e11 : rnd (11 : ℚ) = .fin 11 := by
      have := rnd_int 11 (by norm_num)
      exact_mod_cast this
    have hx11 : b * (1 + d) ≤ 11 := by
      rw [mul_add, mul_one]
      norm_num at hbd1 hb1
      linarith
    rw [hay]
    obtain ⟨x, hx, x0, -⟩ := rnd_mono hp0 hx11 e11
    have ex := rnd_rel hx
    rw [abs_of_nonneg hp0] at ex
    have t3 : (1 : ℚ) / 2 ^ 1075 ≤ 1 / 2 ^ 60 := one_div_le_one_div_of_le (by positivity) (pow_le_pow_right₀ (by norm_num) (by norm_num))
    have t4 : b * (1 + d) * (1 / 2 ^ 53) ≤ 11 * (1 / 2 ^ 53) := mul_le_mul_of_nonneg_right hx11 (by positivity)
    generalize (1 : ℚ) / 2 ^ 1075 = tiny at *
    have key : |x - b| ≤ 1 / 2 ^ 36 := by
      rw [abs_le] at ex ⊢
      have e1 : b * (1 + d) = b + b * d := by ring
      rw [e1] at *
      have t5 : (10 : ℚ) * (1 + 1 / 2 ^ 40) * (1 / 2 ^ 40) + 11 * (1 / 2 ^ 53) + 1 / 2 ^ 60 ≤ 1 / 2 ^ 36 := by norm_num
      constructor <;> linarith [ex.1, ex.2]
    refine ⟨x, hx, x0, ?_, key⟩
    have := (abs_le.1 key).2
    have t6 : (10 : ℚ) * (1 + 1 / 2 ^ 40) + 1 / 2 ^ 36 ≤ 10 + 1 / 2 ^ 35 := by norm_num
    linarith

/-- Text, token and number printed, for a double away from zero. -/
theorem printed {lib : Lib} (hl : LgOk lib) (hp : Pow01Ok lib) (u : Bool) (prec : Nat) (q : ℚ)
    (h0 : 1 / 10 ^ 308 * (1 + 1 / 2 ^ 39) ≤ |q|) (h1 : |q| < 2 ^ 1024) :
    ∃ (tok : NumTok) (x : ℚ) (K : Nat) (e : Int), tok.WF ∧ writeDouble lib u prec (.fin q) = .ok tok.text ∧ (tok.neg = true ↔ q < 0) ∧
      (scale lib |q|) = (e, .fin x) ∧ mag tok = (K : ℚ) / 10 ^ min prec 9 * 10 ^ e ∧ |(K : ℚ) - x * 10 ^ min prec 9| ≤ 1 / 2 + 1 / 2 ^ 22 ∧
      (e = 0 → tok.exp = none) ∧ Canon (min prec 9) tok := by
  have hq : q ≠ 0 := by
    intro h; rw [h, abs_zero] at h0
    have : (0 : ℚ) < 1 / 10 ^ 308 * (1 + 1 / 2 ^ 39) := by positivity
    linarith
  have hsc := scaled hl hp h0 h1
  rcases writeDouble_fin lib u prec q hq with ⟨x, M, s1, s2, s3, s4, s5, s6⟩ | ⟨-, s2⟩
  · obtain ⟨o1, o2, o3⟩ := outTok_spec (decide (q < 0)) (min prec 9) (carry (min prec 9) ⌊x⌋.toNat M (scale lib |q|).1).1
        (carry (min prec 9) ⌊x⌋.toNat M (scale lib |q|).1).2.1 (carry (min prec 9) ⌊x⌋.toNat M (scale lib |q|).1).2.2
        (carry_lt _ _ _ _ s4)
    have hfl : ((⌊x⌋.toNat : Nat) : ℚ) = ⌊x⌋ := by
      have : ((⌊x⌋.toNat : Nat) : Int) = ⌊x⌋ := Int.toNat_of_nonneg (Int.floor_nonneg.2 s2)
      exact_mod_cast this
    have hP : (0 : ℚ) < 10 ^ min prec 9 := by positivity
    have hPn : 0 < (10 : Nat) ^ min prec 9 := by positivity
    have hP9 : (10 : ℚ) ^ min prec 9 ≤ 10 ^ 9 := pow_le_pow_right₀ (by norm_num) (min_le_right _ _)
    refine ⟨_, x, ⌊x⌋.toNat * 10 ^ min prec 9 + M, (scale lib |q|).1, o1, ?_, by unfold outTok; simp, ?_, ?_, ?_, ?_,
      outTok_canon _ _ _ _ _ (carry_lt _ _ _ _ s4)⟩
    · rw [s6, o2]; simp
    · rw [← s1]
    · rw [o3]
      push_cast
      unfold carry
      split
      · next hM =>
        have hM' : M = 10 ^ min prec 9 := by omega
        split
        · next h10 =>
          -- the integer part becomes ten
          have : ⌊x⌋.toNat + 1 = 10 := by
            by_contra hne
            have h11 : 10 ≤ ⌊x⌋.toNat := by omega
            have h11q : (10 : ℚ) ≤ ⌊x⌋ := by rw [← hfl]; exact_mod_cast h11
            rcases hsc with ⟨e0, -⟩ | ⟨-, x', e1, e2, e3, -⟩
            · exact h10.2 e0
            · rw [s1] at e1; cases e1
              rw [hM'] at s5
              push_cast at s5
              have := (abs_le.1 s5).2
              have e4 : (x - ⌊x⌋) * 10 ^ min prec 9 ≤ 1 / 2 ^ 35 * 10 ^ min prec 9 := mul_le_mul_of_nonneg_right (by linarith) (le_of_lt hP)
              have e5 : (1 : ℚ) ≤ 10 ^ min prec 9 := one_le_pow₀ (by norm_num)
              nlinarith
          have h9 : (⌊x⌋.toNat : ℚ) = 9 := by
            have : ⌊x⌋.toNat = 9 := by omega
            exact_mod_cast this
          dsimp only
          rw [h9, hM', zpow_add₀ (by norm_num), zpow_one]
          push_cast
          rw [Nat.sub_self]
          field_simp
          norm_num
        · dsimp only
          rw [hM']
          push_cast
          rw [Nat.sub_self]
          field_simp
          ring
      · dsimp only
        field_simp
    · push_cast
      rw [hfl]
      have : (⌊x⌋ : ℚ) * 10 ^ min prec 9 + M - x * 10 ^ min prec 9 = M - (x - ⌊x⌋) * 10 ^ min prec 9 := by ring
      rw [this]; exact s5
    · intro he
      unfold outTok carry
      dsimp only
      rw [if_neg (fun h => h.2 he : ¬ (⌊x⌋.toNat + 1 ≥ 10 ∧ (scale lib |q|).1 ≠ 0))]
      split <;> simp
  · exfalso
    rcases hsc with ⟨-, e1, e2⟩ | ⟨-, x, e1, e2, e3, -⟩
    · rcases s2 _ e1 with h | h
      · have := abs_nonneg q; linarith
      · norm_num at h; linarith
    · rcases s2 _ e1 with h | h
      · linarith
      · norm_num at h e3; linarith

/-! ## C106 -/

theorem normal_ge {q : ℚ} (h : 1 / 2 ^ 1022 ≤ |q|) : 1 / 10 ^ 308 * (1 + 1 / 2 ^ 39) ≤ |q| :=
  le_trans (by norm_num) h

/-- C106: zero and every normal double is printed without undefined behaviour, whatever the precision. Missing: doubles below
2^-1022, see the violation. -/
theorem C106_defined_partial {lib : Lib} (hl : LgOk lib) (hp : Pow01Ok lib) (u : Bool) (prec : Nat) (q : ℚ)
    (h0 : q = 0 ∨ 1 / 2 ^ 1022 ≤ |q|) (h1 : |q| < 2 ^ 1024) : ∃ t, writeDouble lib u prec (.fin q) = .ok t := by
  rcases h0 with rfl | h0
  · exact ⟨[48], by unfold writeDouble; dsimp only; rw [if_pos rfl]⟩
  · obtain ⟨tok, x, K, e, -, h, -⟩ := printed hl hp u prec q (normal_ge h0) h1
    exact ⟨_, h⟩

/-- C106 does not hold for numbers closer to zero: below 10^-309 the exponent found is less than -308, `pow(0.1, -309)` is
infinite (it exceeds the largest double), and the infinite product is converted to an integer, which is undefined
(serializer.h:305, 320). -/
theorem C106_violation_subnormal {lib : Lib} (hl : LgOk lib) (hinf : ∀ i : Int, i ≤ -309 → lib.pow01 i = .inf false)
    (u : Bool) (prec : Nat) (q : ℚ) (h0 : q ≠ 0) (h1 : |q| * (1 + 1 / 2 ^ 40) < 1 / 10 ^ 308) :
    writeDouble lib u prec (.fin q) = .ub := by
  have ha : 0 < |q| := abs_pos.2 h0
  have hlg : lib.lg |q| ≤ -309 := by
    by_contra hc
    have h2 : (10 : ℚ) ^ (-308 : Int) ≤ 10 ^ lib.lg |q| := zpow_le_zpow_right₀ (by norm_num) (by omega)
    have h3 : (10 : ℚ) ^ (-308 : Int) = 1 / 10 ^ 308 := by rw [zpow_neg, one_div]; norm_cast
    rw [h3] at h2
    exact absurd (lt_of_le_of_lt (le_trans h2 (hl _ ha).1) h1) (lt_irrefl _)
  have hs : scale lib |q| = (lib.lg |q|, .inf false) := by
    unfold scale
    rw [if_neg (by omega), hinf _ hlg, mul, if_neg (ne_of_gt ha), decide_eq_false (not_lt.2 (le_of_lt ha))]
    rfl
  rcases writeDouble_fin lib u prec q h0 with ⟨x, M, h, -⟩ | ⟨h, -⟩
  · rw [hs] at h; cases h
  · exact h

example : writeDouble exactLib true 4 (.fin (1 / 2 ^ 1074)) = .ub := by decide +kernel
example : writeDouble exactLib true 4 (.fin (1 / 2 ^ 1022)) = .ok (ascii "2.2251e-308") := by decide +kernel
example : (1 : ℚ) / 2 ^ 1022 ≤ |-5 / 4| ∧ |(-5 : ℚ) / 4| < 2 ^ 1024 := by
  constructor
  · rw [abs_of_nonpos (by norm_num)]; norm_num
  · rw [abs_of_nonpos (by norm_num)]; norm_num

/-! ## C107 -/

/-- C107, numbers printed without exponent (0.01 ≤ |q| < 10^8): the printed decimal number is the nearest one with at most
`prec` decimals up to a millionth of a step. -/
theorem C107_fixed {lib : Lib} (hl : LgOk lib) (hp : Pow01Ok lib) (u : Bool) (prec : Nat) (q : ℚ) (h0 : 1 / 2 ^ 1022 ≤ |q|)
    (h1 : |q| < 2 ^ 1024) (hr : -3 < lib.lg |q| ∧ lib.lg |q| < 8) : ∃ tok : NumTok, tok.WF ∧
    writeDouble lib u prec (.fin q) = .ok tok.text ∧ (tok.neg = true ↔ q < 0) ∧ tok.exp = none ∧ Canon (min prec 9) tok ∧
    abs (mag tok - abs q) ≤ (1 / 2 + 1 / 2 ^ 22) / 10 ^ min prec 9 := by
  obtain ⟨tok, x, K, e, t1, t2, t3, t4, t5, t6, t7, t8⟩ := printed hl hp u prec q (normal_ge h0) h1
  have hs : scale lib |q| = (0, .fin |q|) := by unfold scale; rw [if_pos hr]
  rw [hs] at t4
  obtain ⟨rfl, hx⟩ := Prod.mk.inj t4
  cases hx
  have hP : (0 : ℚ) < 10 ^ min prec 9 := by positivity
  refine ⟨tok, t1, t2, t3, t7 rfl, t8, ?_⟩
  rw [t5, zpow_zero, mul_one, le_div_iff₀ hP]
  calc |(K : ℚ) / 10 ^ min prec 9 - (|q|)| * 10 ^ min prec 9 = |((K : ℚ) / 10 ^ min prec 9 - (|q|)) * 10 ^ min prec 9| := by
        rw [abs_mul, abs_of_pos hP]
    _ = |(K : ℚ) - |q| * 10 ^ min prec 9| := by congr 1; field_simp
    _ ≤ _ := t6

/-- C107, other numbers: the relative error is at most 0.55 units of the last decimal of the normalised number. -/
theorem C107_scientific {lib : Lib} (hl : LgOk lib) (hp : Pow01Ok lib) (u : Bool) (prec : Nat) (q : ℚ) (h0 : 1 / 2 ^ 1022 ≤ |q|)
    (h1 : |q| < 2 ^ 1024) (hr : ¬ (-3 < lib.lg |q| ∧ lib.lg |q| < 8)) : ∃ tok : NumTok, tok.WF ∧
    writeDouble lib u prec (.fin q) = .ok tok.text ∧ (tok.neg = true ↔ q < 0) ∧
    abs (mag tok - abs q) ≤ abs q * (11 / 20) / 10 ^ min prec 9 := by
  obtain ⟨tok, x, K, e, t1, t2, t3, t4, t5, t6, t7, t8⟩ := printed hl hp u prec q (normal_ge h0) h1
  have hs1 : (scale lib |q|).1 = lib.lg |q| := by unfold scale; rw [if_neg hr]
  have hP : (0 : ℚ) < 10 ^ min prec 9 := by positivity
  have hP9 : (10 : ℚ) ^ min prec 9 ≤ 10 ^ 9 := pow_le_pow_right₀ (by norm_num) (min_le_right _ _)
  have hP1 : (1 : ℚ) ≤ 10 ^ min prec 9 := one_le_pow₀ (by norm_num)
  have ha : 0 < |q| := lt_of_lt_of_le (by positivity) h0
  have hx : |x - |q| * 10 ^ (-lib.lg |q|)| ≤ 1 / 2 ^ 36 := by
    rcases scaled hl hp (normal_ge h0) h1 with ⟨e0, -, -⟩ | ⟨-, x', e1, -, -, e2⟩
    · rw [hs1] at e0; omega
    · rw [t4] at e1; cases e1; exact e2
  have he : e = lib.lg |q| := by rw [← hs1, t4]
  have g := (hl _ ha).1
  have hTi : (10 : ℚ) ^ (-lib.lg |q|) * 10 ^ lib.lg |q| = 1 := by rw [← zpow_add₀ (by norm_num)]; simp
  have hT : (0 : ℚ) < 10 ^ lib.lg |q| := by positivity
  refine ⟨tok, t1, t2, t3, ?_⟩
  rw [t5, he]
  generalize (10 : ℚ) ^ lib.lg |q| = T at *
  generalize (10 : ℚ) ^ (-lib.lg |q|) = U at *
  generalize (10 : ℚ) ^ min prec 9 = P at *
  generalize |q| = a at *
  have e1 : (K : ℚ) / P * T - a = ((K - x * P) + (x - a * U) * P) * (T / P) := by
    have : a = a * (U * T) := by rw [hTi, mul_one]
    conv_lhs => rw [this]
    field_simp
    ring
  rw [e1, abs_mul, abs_of_pos (div_pos hT hP)]
  have e2 : |(K - x * P) + (x - a * U) * P| ≤ 1 / 2 + 1 / 2 ^ 22 + 1 / 2 ^ 36 * 10 ^ 9 := by
    refine le_trans (abs_add_le _ _) (add_le_add t6 ?_)
    rw [abs_mul, abs_of_pos hP]
    exact mul_le_mul hx hP9 (le_of_lt hP) (by positivity)
  calc |(K - x * P) + (x - a * U) * P| * (T / P) ≤ (1 / 2 + 1 / 2 ^ 22 + 1 / 2 ^ 36 * 10 ^ 9) * (a * (1 + 1 / 2 ^ 40) / P) :=
        mul_le_mul e2 (div_le_div_of_nonneg_right g (le_of_lt hP)) (le_of_lt (div_pos hT hP)) (by positivity)
    _ = a * ((1 / 2 + 1 / 2 ^ 22 + 1 / 2 ^ 36 * 10 ^ 9) * (1 + 1 / 2 ^ 40)) / P := by ring
    _ ≤ a * (11 / 20) / P := by
        apply div_le_div_of_nonneg_right _ (le_of_lt hP)
        exact mul_le_mul_of_nonneg_left (by norm_num) (le_of_lt ha)

/-- Printing a double does not determine it: at the highest precision two neighbouring doubles next to 1/3 have one text. -/
theorem C107_violation_lossy (lib : Lib) (u : Bool) (prec : Nat) (h9 : 9 ≤ prec) (h1 : lib.lg (6004799503160661 / 2 ^ 54) = -1)
    (h2 : lib.lg (6004799503160662 / 2 ^ 54) = -1) :
    writeDouble lib u prec (.fin (6004799503160661 / 2 ^ 54)) = .ok (ascii "0.333333333") ∧
    writeDouble lib u prec (.fin (6004799503160662 / 2 ^ 54)) = .ok (ascii "0.333333333") := by
  have hp : min prec 9 = 9 := by omega
  constructor
  · unfold writeDouble scale
    dsimp only
    rw [show absR (6004799503160661 / 2 ^ 54) = 6004799503160661 / 2 ^ 54 by decide +kernel, h1, hp, if_pos (by decide : (-3 : Int) < -1 ∧ (-1 : Int) < 8)]
    decide +kernel
  · unfold writeDouble scale
    dsimp only
    rw [show absR (6004799503160662 / 2 ^ 54) = 6004799503160662 / 2 ^ 54 by decide +kernel, h2, hp, if_pos (by decide : (-3 : Int) < -1 ∧ (-1 : Int) < 8)]
    decide +kernel

example : exactLib.lg (6004799503160661 / 2 ^ 54) = -1 ∧ exactLib.lg 1234567 = 6 ∧ exactLib.lg (3 / 10000) = -4 := by decide +kernel

/-! ## C108 -/

/-- C108: a double within a quarter step of a decimal number with `prec` decimals is printed as exactly that number. -/
theorem C108_nearest {lib : Lib} (hl : LgOk lib) (hp : Pow01Ok lib) (u : Bool) (prec : Nat) (q : ℚ) (h0 : 1 / 2 ^ 1022 ≤ |q|)
    (h1 : |q| < 2 ^ 1024) (hr : -3 < lib.lg |q| ∧ lib.lg |q| < 8) (k : Nat)
    (hk : abs (abs q * 10 ^ min prec 9 - k) ≤ 1 / 4) : ∃ tok : NumTok, tok.WF ∧
    writeDouble lib u prec (.fin q) = .ok tok.text ∧ (tok.neg = true ↔ q < 0) ∧ tok.exp = none ∧ Canon (min prec 9) tok ∧
    mag tok = (k : ℚ) / 10 ^ min prec 9 := by
  obtain ⟨tok, x, K, e, t1, t2, t3, t4, t5, t6, t7, t8⟩ := printed hl hp u prec q (normal_ge h0) h1
  have hs : scale lib |q| = (0, .fin |q|) := by unfold scale; rw [if_pos hr]
  rw [hs] at t4
  obtain ⟨rfl, hx⟩ := Prod.mk.inj t4
  cases hx
  refine ⟨tok, t1, t2, t3, t7 rfl, t8, ?_⟩
  have : |(K : ℚ) - k| < 1 := by
    rw [abs_le] at t6 hk
    rw [abs_lt]
    norm_num at t6
    constructor <;> linarith [t6.1, t6.2, hk.1, hk.2]
  have hKk : K = k := by
    have h : |(K : Int) - k| < 1 := by exact_mod_cast this
    have := Int.abs_lt_one_iff.1 h
    omega
  rw [t5, hKk, zpow_zero, mul_one]

/-- C108, applied: the double nearest to a decimal number of at most fifteen digits, with as many decimals as the precision
allows, is printed as that number, whatever `log10` is exactly. -/
theorem C108_fifteen_digits {lib : Lib} (hl : LgOk lib) (hp : Pow01Ok lib) (u : Bool) (prec : Nat) (k : Nat) (r : ℚ)
    (hk : k ≤ 10 ^ 15) (hr : rnd ((k : ℚ) / 10 ^ min prec 9) = .fin r) (hlo : 11 / 1000 ≤ r) (hhi : r ≤ 99999999) :
    ∃ tok : NumTok, tok.WF ∧ tok.neg = false ∧ writeDouble lib u prec (.fin r) = .ok tok.text ∧ mag tok = (k : ℚ) / 10 ^ min prec 9 ∧
      (r ≠ 0 → ∃ tok' : NumTok, tok'.WF ∧ tok'.neg = true ∧ writeDouble lib u prec (.fin (-r)) = .ok tok'.text ∧ mag tok' = mag tok) := by
  have hr0 : 0 < r := by linarith
  have hn : (1 : ℚ) / 2 ^ 1022 ≤ r := le_trans (by norm_num) hlo
  have hx : r < 2 ^ 1024 := lt_of_le_of_lt hhi (by norm_num)
  obtain ⟨g1, g2⟩ := hl r hr0
  have hP : (0 : ℚ) < 10 ^ min prec 9 := by positivity
  have hP9 : (10 : ℚ) ^ min prec 9 ≤ 10 ^ 9 := pow_le_pow_right₀ (by norm_num) (min_le_right _ _)
  have hl2 : -3 < lib.lg r ∧ lib.lg r < 8 := by
    constructor
    · by_contra hc
      have : (10 : ℚ) ^ (lib.lg r + 1) ≤ 10 ^ (-2 : Int) := zpow_le_zpow_right₀ (by norm_num) (by omega)
      norm_num at this g2
      linarith
    · by_contra hc
      have : (10 : ℚ) ^ (8 : Int) ≤ 10 ^ lib.lg r := zpow_le_zpow_right₀ (by norm_num) (by omega)
      norm_num at this g1
      linarith
  have hq : abs (r * 10 ^ min prec 9 - k) ≤ 1 / 4 := by
    have he := rnd_rel hr
    have hkq : (k : ℚ) ≤ 10 ^ 15 := by exact_mod_cast hk
    have hpos : (0 : ℚ) ≤ (k : ℚ) / 10 ^ min prec 9 := by positivity
    rw [abs_of_nonneg hpos] at he
    have : r * 10 ^ min prec 9 - k = (r - (k : ℚ) / 10 ^ min prec 9) * 10 ^ min prec 9 := by field_simp
    rw [this, abs_mul, abs_of_pos hP]
    calc |r - (k : ℚ) / 10 ^ min prec 9| * 10 ^ min prec 9 ≤ ((k : ℚ) / 10 ^ min prec 9 * (1 / 2 ^ 53) + 1 / 2 ^ 1075) * 10 ^ min prec 9 :=
          mul_le_mul_of_nonneg_right he (le_of_lt hP)
      _ = (k : ℚ) * (1 / 2 ^ 53) + 1 / 2 ^ 1075 * 10 ^ min prec 9 := by field_simp
      _ ≤ 10 ^ 15 * (1 / 2 ^ 53) + 1 / 2 ^ 1075 * 10 ^ 9 :=
          add_le_add (mul_le_mul_of_nonneg_right hkq (by norm_num)) (mul_le_mul_of_nonneg_left hP9 (by positivity))
      _ ≤ 1 / 4 := by norm_num
  have habs : |r| = r := abs_of_pos hr0
  have habsn : |-r| = r := by rw [abs_neg, habs]
  obtain ⟨tok, a1, a2, a3, -, -, a4⟩ := C108_nearest hl hp u prec r (by rwa [habs]) (by rwa [habs]) (by rwa [habs]) k (by rwa [habs])
  obtain ⟨tok', b1, b2, b3, -, -, b4⟩ := C108_nearest hl hp u prec (-r) (by rwa [habsn]) (by rwa [habsn]) (by rwa [habsn]) k (by rwa [habsn])
  refine ⟨tok, a1, ?_, a2, a4, fun _ => ⟨tok', b1, b3.2 (by linarith), b2, by rw [a4, b4]⟩⟩
  cases h : tok.neg with
  | false => rfl
  | true => exact absurd (a3.1 h) (by linarith)

example : rnd (((123456789 : Nat) : ℚ) / 10 ^ min 4 9) = .fin (6787108751669409 / 2 ^ 39) := by decide +kernel
example : writeDouble exactLib true 4 (.fin (6787108751669409 / 2 ^ 39)) = .ok (ascii "12345.6789") := by decide +kernel

end Imt.Props
