import Verif.Model.Fp
import Mathlib.Data.Rat.Floor
import Mathlib.Algebra.Order.Field.Power
import Mathlib.Tactic.Linarith
import Mathlib.Tactic.Positivity
import Mathlib.Tactic.FieldSimp
import Mathlib.Tactic.NormNum
import Mathlib.Tactic.Ring
import Mathlib.Tactic.SplitIfs
/-!
# Facts about binary64 rounding
-/
namespace Imt.Fp
open Imt
open Imt.Conv (Dbl)

theorem pow2_eq (e : Int) : pow2 e = (2 : ℚ) ^ e := by
  unfold pow2
  split
  · next h =>
    obtain ⟨n, rfl⟩ := Int.eq_ofNat_of_zero_le h
    simp
  · next h =>
    obtain ⟨n, hn⟩ := Int.eq_ofNat_of_zero_le (show 0 ≤ -e by omega)
    have : e = -(n : Int) := by omega
    subst this
    simp

theorem absR_eq (q : ℚ) : absR q = |q| := by
  unfold absR
  split
  · next h => rw [abs_of_neg h]
  · next h => rw [abs_of_nonneg (not_lt.1 h)]

theorem pow2_pos (e : Int) : 0 < pow2 e := by rw [pow2_eq]; positivity

theorem expo_spec (q : ℚ) (hq : q ≠ 0) : (2 : ℚ) ^ expo q ≤ |q| ∧ |q| < (2 : ℚ) ^ (expo q + 1) := by
  have hn : q.num.natAbs ≠ 0 := by simpa using hq
  have hd : q.den ≠ 0 := q.den_nz
  have a1 := Nat.log2_self_le hn
  have a2 := Nat.lt_log2_self (n := q.num.natAbs)
  have b1 := Nat.log2_self_le hd
  have b2 := Nat.lt_log2_self (n := q.den)
  have hq' : |q| = (q.num.natAbs : ℚ) / q.den := by
    conv_lhs => rw [← Rat.num_div_den q]
    rw [abs_div, Nat.abs_cast, Nat.cast_natAbs]
    simp
  have hdp : (0 : ℚ) < q.den := by exact_mod_cast q.den_pos
  have c1 : (2 : ℚ) ^ (Nat.log2 q.num.natAbs) ≤ q.num.natAbs := by exact_mod_cast a1
  have c2 : (q.num.natAbs : ℚ) < 2 ^ (Nat.log2 q.num.natAbs + 1) := by exact_mod_cast a2
  have d1 : (2 : ℚ) ^ (Nat.log2 q.den) ≤ q.den := by exact_mod_cast b1
  have d2 : (q.den : ℚ) < 2 ^ (Nat.log2 q.den + 1) := by exact_mod_cast b2
  set e : Int := (Nat.log2 q.num.natAbs : Int) - (Nat.log2 q.den : Int) with he
  have up : |q| < (2 : ℚ) ^ (e + 1) := by
    rw [hq', div_lt_iff₀ hdp, he]
    have : (2 : ℚ) ^ ((Nat.log2 q.num.natAbs : Int) - (Nat.log2 q.den : Int) + 1) * 2 ^ (Nat.log2 q.den) = 2 ^ (Nat.log2 q.num.natAbs + 1) := by
      rw [← zpow_natCast, ← zpow_add₀ (by norm_num), ← zpow_natCast]
      congr 1; push_cast; ring
    calc (q.num.natAbs : ℚ) < 2 ^ (Nat.log2 q.num.natAbs + 1) := c2
      _ = _ := this.symm
      _ ≤ _ := by apply mul_le_mul_of_nonneg_left d1; positivity
  have lo : (2 : ℚ) ^ (e - 1) ≤ |q| := by
    rw [hq', le_div_iff₀ hdp, he]
    have : (2 : ℚ) ^ ((Nat.log2 q.num.natAbs : Int) - (Nat.log2 q.den : Int) - 1) * 2 ^ (Nat.log2 q.den + 1) = 2 ^ (Nat.log2 q.num.natAbs) := by
      rw [← zpow_natCast, ← zpow_add₀ (by norm_num), ← zpow_natCast]
      congr 1; push_cast; ring
    calc _ ≤ (2 : ℚ) ^ ((Nat.log2 q.num.natAbs : Int) - (Nat.log2 q.den : Int) - 1) * 2 ^ (Nat.log2 q.den + 1) := by
          apply mul_le_mul_of_nonneg_left d2.le; positivity
      _ = _ := this
      _ ≤ _ := c1
  unfold expo
  dsimp only
  rw [← he, pow2_eq, absR_eq]
  split
  · next h => exact ⟨h, up⟩
  · next h => exact ⟨lo, by rw [sub_add_cancel]; exact not_le.1 h⟩

theorem roundEven_floor (q : ℚ) : roundEven q = ⌊q⌋ ∧ q - ⌊q⌋ ≤ 1 / 2 ∨ roundEven q = ⌊q⌋ + 1 ∧ 1 / 2 ≤ q - ⌊q⌋ := by
  have hf : q.floor = ⌊q⌋ := rfl
  unfold roundEven
  dsimp only
  rw [hf]
  split
  · next h => exact Or.inl ⟨rfl, h.le⟩
  · next h =>
    split
    · next h' => exact Or.inr ⟨rfl, h'.le⟩
    · next h' =>
      split
      · exact Or.inl ⟨rfl, not_lt.1 h'⟩
      · exact Or.inr ⟨rfl, not_lt.1 h⟩

theorem roundEven_err (q : ℚ) : |(roundEven q : ℚ) - q| ≤ 1 / 2 := by
  have h1 := Int.floor_le q
  have h2 := Int.lt_floor_add_one q
  rcases roundEven_floor q with ⟨e, h⟩ | ⟨e, h⟩
  · rw [e, abs_le]; constructor <;> linarith
  · rw [e, abs_le]; push_cast; constructor <;> linarith

theorem roundEven_int (n : Int) : roundEven (n : ℚ) = n := by
  rcases roundEven_floor (n : ℚ) with ⟨e, h⟩ | ⟨e, h⟩
  · rw [e, Int.floor_intCast]
  · rw [Int.floor_intCast] at h; norm_num at h

theorem roundEven_mono {a b : ℚ} (h : a ≤ b) : roundEven a ≤ roundEven b := by
  have hfl : ⌊a⌋ ≤ ⌊b⌋ := Int.floor_le_floor h
  rcases lt_or_eq_of_le hfl with hlt | heq
  · rcases roundEven_floor a with ⟨e, -⟩ | ⟨e, -⟩ <;> rcases roundEven_floor b with ⟨e', -⟩ | ⟨e', -⟩ <;> omega
  · have hf : ∀ q : ℚ, q.floor = ⌊q⌋ := fun _ => rfl
    unfold roundEven
    dsimp only
    rw [hf, hf, heq]
    split_ifs <;> first | omega | (exfalso; linarith)

theorem ulp_eq (q : ℚ) : ulp q = (2 : ℚ) ^ (max (expo q) (-1022) - 52) := pow2_eq _
theorem ulp_pos (q : ℚ) : 0 < ulp q := pow2_pos _

/-- The rounded value before the test for overflow. -/
def rho (q : ℚ) : ℚ := (roundEven (q / ulp q) : ℚ) * ulp q

theorem rnd_def {q : ℚ} (h : q ≠ 0) : rnd q = if |rho q| < 2 ^ 1024 then .fin (rho q) else .inf (decide (q < 0)) := by
  unfold rnd
  rw [if_neg h]
  dsimp only
  rw [absR_eq, pow2_eq]
  norm_cast

theorem rnd_zero : rnd 0 = .fin 0 := by unfold rnd; rw [if_pos rfl]

theorem rnd_fin {q r : ℚ} (hq : q ≠ 0) (h : rnd q = .fin r) : r = rho q ∧ |rho q| < 2 ^ 1024 := by
  rw [rnd_def hq] at h
  split at h
  · next hl => cases h; exact ⟨rfl, hl⟩
  · cases h

theorem rho_err (q : ℚ) : |rho q - q| ≤ ulp q / 2 := by
  have hp := ulp_pos q
  have h := roundEven_err (q / ulp q)
  have : rho q - q = ((roundEven (q / ulp q) : ℚ) - q / ulp q) * ulp q := by
    unfold rho; field_simp
  rw [this, abs_mul, abs_of_pos hp]
  nlinarith

/-- Rounding error: half a unit in the last place. -/
theorem rnd_err {q r : ℚ} (h : rnd q = .fin r) : |r - q| ≤ ulp q / 2 := by
  by_cases hq : q = 0
  · subst hq
    rw [rnd_zero] at h; cases h
    simp only [sub_self, abs_zero]
    have := ulp_pos 0
    linarith
  · rw [(rnd_fin hq h).1]; exact rho_err q

theorem ulp_le (q : ℚ) (hq : q ≠ 0) : ulp q ≤ |q| * (1 / 2 ^ 52) + 1 / 2 ^ 1074 := by
  rw [ulp_eq]
  have h1 := (expo_spec q hq).1
  rcases le_total (expo q) (-1022) with h | h
  · rw [max_eq_right h]
    have : (2 : ℚ) ^ ((-1022 : Int) - 52) = 1 / 2 ^ 1074 := by
      rw [show ((-1022 : Int) - 52) = -((1074 : Nat) : Int) by norm_num, zpow_neg, zpow_natCast, one_div]
    rw [this]
    have : 0 ≤ |q| * (1 / 2 ^ 52) := by positivity
    linarith
  · rw [max_eq_left h]
    have : (2 : ℚ) ^ (expo q - 52) = 2 ^ expo q * (1 / 2 ^ 52) := by
      rw [zpow_sub₀ (by norm_num), div_eq_mul_one_div]
      norm_cast
    rw [this]
    have h2 : (2 : ℚ) ^ expo q * (1 / 2 ^ 52) ≤ |q| * (1 / 2 ^ 52) := mul_le_mul_of_nonneg_right h1 (by positivity)
    have h3 : (0 : ℚ) ≤ 1 / 2 ^ 1074 := by positivity
    linarith

/-- Rounding error, relative. -/
theorem rnd_rel {q r : ℚ} (h : rnd q = .fin r) : |r - q| ≤ |q| * (1 / 2 ^ 53) + 1 / 2 ^ 1075 := by
  by_cases hq : q = 0
  · subst hq
    rw [rnd_zero] at h; cases h
    simp
  · have h1 := rnd_err h
    have h2 := ulp_le q hq
    have e1 : (1 : ℚ) / 2 ^ 53 = 1 / 2 ^ 52 / 2 := by norm_num
    have e2 : (1 : ℚ) / 2 ^ 1075 = 1 / 2 ^ 1074 / 2 := by rw [pow_succ]; field_simp
    rw [e1, e2]
    linarith

theorem expo_mono {a b : ℚ} (ha : 0 < a) (h : a ≤ b) : expo a ≤ expo b := by
  have h1 := (expo_spec a ha.ne').1
  have h2 := (expo_spec b (by linarith : (0:ℚ) < b).ne').2
  rw [abs_of_pos ha] at h1
  rw [abs_of_pos (by linarith)] at h2
  have : (2 : ℚ) ^ expo a < 2 ^ (expo b + 1) := by linarith
  have := (zpow_lt_zpow_iff_right₀ (by norm_num : (1 : ℚ) < 2)).1 this
  omega

theorem zpow2_le {a b : Int} (h : a ≤ b) : (2 : ℚ) ^ a ≤ 2 ^ b := zpow_le_zpow_right₀ (by norm_num) h

theorem rho_le (q : ℚ) (M : Int) (hM : M = max (expo q) (-1022)) (hq : 0 < q) : rho q ≤ 2 ^ (M + 1) := by
  have hlt : q < 2 ^ (M + 1) := by
    have h2 := (expo_spec q hq.ne').2
    rw [abs_of_pos hq] at h2
    exact lt_of_lt_of_le h2 (zpow2_le (by rw [hM]; have := le_max_left (expo q) (-1022); omega))
  have hu : ulp q = 2 ^ (M - 52) := by rw [ulp_eq, hM]
  have hm : (2 : ℚ) ^ (M + 1) = (((2 ^ 53 : Int)) : ℚ) * 2 ^ (M - 52) := by
    have : (((2 ^ 53 : Int)) : ℚ) = (2 : ℚ) ^ (53 : Int) := by norm_cast
    rw [this, ← zpow_add₀ (by norm_num)]
    congr 1; ring
  have hr : roundEven (q / ulp q) ≤ 2 ^ 53 := by
    rw [← roundEven_int (2 ^ 53)]
    apply roundEven_mono
    rw [div_le_iff₀ (ulp_pos q), hu, ← hm]
    exact hlt.le
  unfold rho
  rw [hm, ← hu]
  exact mul_le_mul_of_nonneg_right (by exact_mod_cast hr) (ulp_pos q).le

theorem rho_ge (q : ℚ) (hq : 0 < q) (h : -1022 ≤ expo q) : (2 : ℚ) ^ expo q ≤ rho q := by
  have h1 := (expo_spec q hq.ne').1
  rw [abs_of_pos hq] at h1
  have hu : ulp q = 2 ^ (expo q - 52) := by rw [ulp_eq, max_eq_left h]
  have hm : (2 : ℚ) ^ (expo q) = (((2 ^ 52 : Int)) : ℚ) * 2 ^ (expo q - 52) := by
    have : (((2 ^ 52 : Int)) : ℚ) = (2 : ℚ) ^ (52 : Int) := by norm_cast
    rw [this, ← zpow_add₀ (by norm_num)]
    congr 1; ring
  have hr : 2 ^ 52 ≤ roundEven (q / ulp q) := by
    rw [← roundEven_int (2 ^ 52)]
    apply roundEven_mono
    rw [le_div_iff₀ (ulp_pos q), hu, ← hm]
    exact h1
  unfold rho
  rw [hm, ← hu]
  exact mul_le_mul_of_nonneg_right (by exact_mod_cast hr) (ulp_pos q).le

theorem rho_mono {a b : ℚ} (ha : 0 < a) (h : a ≤ b) : rho a ≤ rho b := by
  have hb : 0 < b := by linarith
  have he := expo_mono ha h
  rcases eq_or_lt_of_le (max_le_max_right (-1022) he) with hM | hM
  · have hu : ulp a = ulp b := by rw [ulp_eq, ulp_eq, hM]
    unfold rho
    rw [hu]
    apply mul_le_mul_of_nonneg_right _ (ulp_pos b).le
    have : roundEven (a / ulp b) ≤ roundEven (b / ulp b) := roundEven_mono (div_le_div_of_nonneg_right h (ulp_pos b).le)
    exact_mod_cast this
  · have hb' : -1022 ≤ expo b := by
      by_contra hc
      rw [max_eq_right (by omega : expo b ≤ -1022)] at hM
      have := le_max_right (expo a) (-1022)
      omega
    rw [max_eq_left hb'] at hM
    calc rho a ≤ 2 ^ (max (expo a) (-1022) + 1) := rho_le a _ rfl ha
      _ ≤ 2 ^ expo b := zpow2_le (by omega)
      _ ≤ rho b := rho_ge b hb hb'

theorem rho_nonneg {q : ℚ} (h : 0 < q) : 0 ≤ rho q := by
  unfold rho
  apply mul_nonneg _ (ulp_pos q).le
  have : roundEven ((0 : Int) : ℚ) ≤ roundEven (q / ulp q) := roundEven_mono (by
    rw [Int.cast_zero]; exact (div_pos h (ulp_pos q)).le)
  rw [roundEven_int] at this
  exact_mod_cast this

/-- Rounding keeps the order of nonnegative numbers. -/
theorem rnd_mono {a b rb : ℚ} (ha : 0 ≤ a) (h : a ≤ b) (hb : rnd b = .fin rb) : ∃ ra, rnd a = .fin ra ∧ 0 ≤ ra ∧ ra ≤ rb := by
  rcases eq_or_lt_of_le ha with rfl | ha
  · refine ⟨0, rnd_zero, le_refl _, ?_⟩
    rcases eq_or_lt_of_le h with rfl | h
    · rw [rnd_zero] at hb; cases hb; exact le_refl _
    · rw [(rnd_fin h.ne' hb).1]; exact rho_nonneg h
  · have hb0 : 0 < b := by linarith
    obtain ⟨e, hl⟩ := rnd_fin hb0.ne' hb
    have hm := rho_mono ha h
    have h0 := rho_nonneg ha
    refine ⟨rho a, ?_, h0, by rw [e]; exact hm⟩
    rw [rnd_def ha.ne', if_pos]
    rw [abs_of_nonneg h0]
    rw [abs_of_nonneg (rho_nonneg hb0)] at hl
    linarith

/-- Numbers with 53 significant bits are kept. -/
theorem rho_exact (k j : Int) (hk : |k| < 2 ^ 53) (hj : -1074 ≤ j) (h0 : k ≠ 0) : rho ((k : ℚ) * 2 ^ j) = (k : ℚ) * 2 ^ j := by
  have hq : (k : ℚ) * 2 ^ j ≠ 0 := mul_ne_zero (by exact_mod_cast h0) (by positivity)
  obtain ⟨q, hqd⟩ : ∃ q : ℚ, q = (k : ℚ) * 2 ^ j := ⟨_, rfl⟩
  rw [← hqd] at hq ⊢
  have h1 := (expo_spec q hq).1
  have habs : |q| < 2 ^ (53 + j) := by
    rw [hqd, abs_mul, abs_of_pos (show (0 : ℚ) < 2 ^ j by positivity), zpow_add₀ (by norm_num)]
    apply mul_lt_mul_of_pos_right _ (by positivity)
    rw [← Int.cast_abs]
    have : ((|k| : Int) : ℚ) < ((2 ^ 53 : Int) : ℚ) := by exact_mod_cast hk
    calc ((|k| : Int) : ℚ) < ((2 ^ 53 : Int) : ℚ) := this
      _ = _ := by norm_cast
  have he : expo q < 53 + j := (zpow_lt_zpow_iff_right₀ (by norm_num : (1 : ℚ) < 2)).1 (lt_of_le_of_lt h1 habs)
  have hE : max (expo q) (-1022) - 52 ≤ j := by
    have := max_le (by omega : expo q ≤ 52 + j) (by omega : -1022 ≤ 52 + j)
    omega
  obtain ⟨n, hn⟩ := Int.eq_ofNat_of_zero_le (show 0 ≤ j - (max (expo q) (-1022) - 52) by omega)
  have hdiv : q / ulp q = ((k * 2 ^ n : Int) : ℚ) := by
    rw [div_eq_iff (ulp_pos q).ne', ulp_eq]
    conv_lhs => rw [hqd]
    push_cast
    rw [mul_assoc, ← zpow_natCast, ← zpow_add₀ (by norm_num)]
    congr 2
    omega
  unfold rho
  rw [hdiv, roundEven_int, ← hdiv, div_mul_cancel₀ _ (ulp_pos q).ne']

theorem rnd_exact (k j : Int) (hk : |k| < 2 ^ 53) (hj : -1074 ≤ j) (hj' : j ≤ 971) : rnd ((k : ℚ) * 2 ^ j) = .fin ((k : ℚ) * 2 ^ j) := by
  by_cases h0 : k = 0
  · subst h0; simp [rnd_zero]
  · have hq : (k : ℚ) * 2 ^ j ≠ 0 := mul_ne_zero (by exact_mod_cast h0) (by positivity)
    rw [rnd_def hq, rho_exact k j hk hj h0, if_pos]
    rw [abs_mul, abs_of_pos (show (0 : ℚ) < 2 ^ j by positivity), ← Int.cast_abs]
    have h1 : ((|k| : Int) : ℚ) < ((2 ^ 53 : Int) : ℚ) := by exact_mod_cast hk
    have h2 : (2 : ℚ) ^ j ≤ 2 ^ (971 : Int) := zpow2_le hj'
    have h3 : (0 : ℚ) < 2 ^ j := by positivity
    calc ((|k| : Int) : ℚ) * 2 ^ j < ((2 ^ 53 : Int) : ℚ) * 2 ^ j := mul_lt_mul_of_pos_right h1 h3
      _ ≤ ((2 ^ 53 : Int) : ℚ) * 2 ^ (971 : Int) := mul_le_mul_of_nonneg_left h2 (by norm_num)
      _ = 2 ^ 1024 := by
        have e1 : ((2 ^ 53 : Int) : ℚ) = 2 ^ (53 : Nat) := by norm_cast
        have e2 : (2 : ℚ) ^ (971 : Int) = 2 ^ (971 : Nat) := zpow_natCast 2 971
        rw [e1, e2, ← pow_add]

theorem rnd_int (n : Int) (h : |n| < 2 ^ 53) : rnd (n : ℚ) = .fin n := by
  have := rnd_exact n 0 h (by norm_num) (by norm_num)
  simpa using this

theorem rnd_half (n : Int) (h : |n| < 2 ^ 53) : rnd ((n : ℚ) / 2) = .fin ((n : ℚ) / 2) := by
  have := rnd_exact n (-1) h (by norm_num) (by norm_num)
  have e : (n : ℚ) * 2 ^ (-1 : Int) = n / 2 := by rw [zpow_neg, zpow_one, div_eq_mul_inv]
  rwa [e] at this

end Imt.Fp
