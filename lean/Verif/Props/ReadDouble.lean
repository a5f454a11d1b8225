import Verif.Lemmas.ReadDouble
import Verif.Lemmas.Canon
import Verif.Props.WriteDouble
/-!
# Reading of doubles
-/
set_option exponentiation.threshold 3000
namespace Imt.Props
open Imt Imt.Spec Imt.Fp
open Imt.Parser (StopNum accVal decVal_eq accVal_cons isDigit_iff)
open Imt.Conv (Dbl)

/-! ## Assumptions about the C library -/

/-- `pow(0.1, n)`: the double next to 0.1 contributes `n` relative errors, the function itself two. -/
def Pow01Near (lib : Lib) : Prop := ∀ n : Nat, n ≤ 307 → ∃ y : ℚ, lib.pow01 (n : Int) = .fin y ∧ Near (n + 2) y (1 / 10 ^ n)

theorem exactLib_pow10 : Pow10Ok exactLib where
  exact n hn := by
    have h5 : (5 : Int) ^ n < 2 ^ 53 :=
      lt_of_le_of_lt (pow_le_pow_right₀ (by norm_num) hn) (by norm_num : (5 : Int) ^ 22 < 2 ^ 53)
    have := rnd_exact (5 ^ n) n (by rw [abs_of_pos (by positivity)]; exact h5) (by omega) (by omega)
    have e : ((5 ^ n : Int) : ℚ) * 2 ^ (n : Int) = 10 ^ n := by
      rw [zpow_natCast]; push_cast; rw [← mul_pow]; norm_num
    rw [e] at this
    exact this
  near n hn := by
    have hle : (10 : ℚ) ^ n ≤ maxDbl := le_trans (pow_le_pow_right₀ (by norm_num) hn) (by unfold maxDbl; norm_num)
    obtain ⟨r, h1, -, -⟩ := rnd_finite (by positivity) hle
    have h2 : rnd (((10 ^ n : Int)) : ℚ) = .fin r := by push_cast; exact h1
    obtain ⟨k, rfl⟩ := rnd_isInt h2
    refine ⟨k, h1, ?_⟩
    have := rnd_near h1 (Or.inr (le_trans (by norm_num) (one_le_pow₀ (by norm_num) : (1 : ℚ) ≤ 10 ^ n)))
    exact this.mono (by positivity) (by omega)
  inf n hn := by
    have hge : (10 : ℚ) ^ 309 ≤ 10 ^ n := pow_le_pow_right₀ (by norm_num) hn
    rcases rnd_nonneg (q := (10 : ℚ) ^ n) (by positivity) with ⟨r, h1, -⟩ | h1
    · exfalso
      have h2 := rnd_fin_le (by positivity) h1
      have h3 := (rnd_near h1 (Or.inr (le_trans (by norm_num) hge))).lo
      have h4 : (10 : ℚ) ^ 309 * (1 - uu) ^ 1 ≤ 10 ^ n * (1 - uu) ^ 1 := mul_le_mul_of_nonneg_right hge (by norm_num)
      have h5 : maxDbl < (10 : ℚ) ^ 309 * (1 - uu) ^ 1 := by unfold maxDbl; norm_num
      exact absurd (lt_of_lt_of_le h5 (le_trans h4 (le_trans h3 h2))) (lt_irrefl _)
    · exact h1

theorem exactLib_pow01 : Pow01Near exactLib := by
  intro n hn
  have e : (10 : ℚ) ^ (-(n : Int)) = 1 / 10 ^ n := by rw [zpow_neg, zpow_natCast, one_div]
  have hge : (1 : ℚ) / 10 ^ 307 ≤ 1 / 10 ^ n := one_div_le_one_div_of_le (by positivity) (pow_le_pow_right₀ (by norm_num) hn)
  have hle : (1 : ℚ) / 10 ^ n ≤ 1 := by
    rw [div_le_one (by positivity)]; exact one_le_pow₀ (by norm_num)
  obtain ⟨r, h1, -, -⟩ := rnd_finite (by positivity) (le_trans hle (by unfold maxDbl; norm_num))
  refine ⟨r, ?_, ?_⟩
  · show rnd ((10 : ℚ) ^ (-(n : Int))) = _
    rw [e]; exact h1
  · have := rnd_near h1 (Or.inr (le_trans (by norm_num) hge))
    exact this.mono (by positivity) (by omega)

/-! ## Outcomes -/

theorem mag_eq (t : NumTok) : mag t = mant t * 10 ^ expVal t.exp := rfl

theorem mag_nonneg (t : NumTok) : 0 ≤ mag t := by rw [mag_eq]; have := mant_nonneg t; positivity

/-- A JSON number has no superfluous digits in its integer part. -/
theorem int_length {t : NumTok} (h : t.WF) (hi : (decVal t.int : ℚ) < 2 ^ 1022) : t.int.length ≤ 309 := by
  obtain ⟨⟨h0, h1⟩, h2⟩ := h.int
  by_contra hc
  cases ht : t.int with
  | nil => exact h0 ht
  | cons c cs =>
    rw [ht] at hi h1 h2 hc
    have hcd := h1 c (by simp)
    unfold IsDig at hcd
    have hc48 : c ≠ 48 := by
      intro e
      have := h2 (by rw [e]; rfl)
      rw [this] at hc
      simp at hc
    rw [List.length_cons] at hc
    have hv : 10 ^ 309 ≤ decVal (c :: cs) := by
      rw [decVal_eq, accVal_cons, accVal_eq, Nat.zero_mul, Nat.zero_add]
      have h4 : 10 ^ 309 ≤ 10 ^ cs.length := Nat.pow_le_pow_right (by norm_num) (by omega)
      have h5 : 1 * 10 ^ cs.length ≤ (c - 48) * 10 ^ cs.length := Nat.mul_le_mul_right _ (by omega)
      omega
    have h6 : ((10 ^ 309 : Nat) : ℚ) ≤ (decVal (c :: cs) : ℚ) := by exact_mod_cast hv
    have h7 : (2 : ℚ) ^ 1022 < ((10 ^ 309 : Nat) : ℚ) := by norm_num
    exact absurd (lt_of_le_of_lt (le_trans (le_of_lt h7) h6) hi) (lt_irrefl _)

theorem expFits_of {t : NumTok} (he : |expVal t.exp| ≤ 307) : ExpFits t.exp := by
  intro x hx
  unfold expVal at he
  rw [show t.exp = some x from hx] at he
  dsimp only at he
  split at he <;> rw [abs_le] at he <;> omega

theorem err_tiny {n : Nat} {v r tiny : ℚ} (hv : 0 ≤ v) (hn : n ≤ 2 ^ 52) (h1 : v * (1 - uu) ^ n - tiny ≤ r) (h2 : r ≤ v * (1 + uu) ^ n + tiny)
    : |r - v| ≤ v * (n / 2 ^ 52) + tiny := by
  have b1 := (Near.err ⟨le_refl _, mul_le_mul_of_nonneg_left (le_trans (pow_le_one₀ (le_of_lt one_sub_pos) (by norm_num)) (one_le_pow₀ one_add_ge)) hv⟩ hv hn :
    |v * (1 - uu) ^ n - v| ≤ _)
  have b2 := (Near.err ⟨mul_le_mul_of_nonneg_left (le_trans (pow_le_one₀ (le_of_lt one_sub_pos) (by norm_num)) (one_le_pow₀ one_add_ge)) hv, le_refl _⟩ hv hn :
    |v * (1 + uu) ^ n - v| ≤ _)
  generalize v * (1 - uu) ^ n = a at *
  generalize v * (1 + uu) ^ n = b at *
  generalize v * (n / 2 ^ 52 : ℚ) = c at *
  rw [abs_le] at *
  constructor <;> linarith [b1.1, b1.2, b2.1, b2.2]

/-- Error count of a token. -/
def steps (t : NumTok) : Nat := 4 * t.int.length + 2 * (t.frac.getD []).length + (expVal t.exp).natAbs + 10

/-- What reading a token of moderate size gives. -/
theorem read_outcome {lib : Lib} (hp : Pow10Ok lib) (h01 : Pow01Near lib) (t : NumTok) (h : t.WF)
    (hf : (t.frac.getD []).length ≤ 307) (he : |expVal t.exp| ≤ 307) (rest : Bytes) (hr : StopNum rest) :
    (readNumber lib (t.text ++ rest) = .err ∧ 2 ^ 1023 ≤ (decVal t.int : ℚ) * (1 + uu) ^ (1 + 4 * t.int.length)) ∨
    (readNumber lib (t.text ++ rest) = .ok (.inf t.neg, rest) ∧ 2 ^ 1023 ≤ mag t * (1 + uu) ^ steps t) ∨
    ∃ a : ℚ, 0 ≤ a ∧ readNumber lib (t.text ++ rest) = .ok (.fin (if t.neg then -a else a), rest) ∧
      mag t * (1 - uu) ^ steps t - 1 / 2 ^ 1075 ≤ a ∧ a ≤ mag t * (1 + uu) ^ steps t + 1 / 2 ^ 1075 := by
  rcases readNumber_spec hp t h (expFits_of he) hf rest hr with ⟨h1, h2⟩ | ⟨D, nD, hD, hread⟩
  · exact Or.inl ⟨h1, h2⟩
  · right
    have hD0 : 0 ≤ D := nD.nonneg (mant_nonneg t)
    have hfin : ∀ a : ℚ, (if t.neg then neg (.fin a) else (.fin a : Dbl)) = .fin (if t.neg then -a else a) := by
      intro a; cases t.neg <;> rfl
    have hinf : (if t.neg then neg (.inf false) else (.inf false : Dbl)) = .inf t.neg := by
      cases t.neg <;> rfl
    have htiny : (0 : ℚ) ≤ 1 / 2 ^ 1075 := by positivity
    rw [hread]
    have hst : steps t = 4 * t.int.length + 2 * (t.frac.getD []).length + 7 + (expVal t.exp).natAbs + 3 := by unfold steps; omega
    rw [hst]
    generalize 4 * t.int.length + 2 * (t.frac.getD []).length + 7 = N at *
    cases hx : t.exp with
    | none =>
      right
      have hmag : mag t = mant t := by rw [mag_eq, hx]; simp [expVal]
      refine ⟨D, hD0, by rw [expF, hfin], ?_, ?_⟩
      · rw [hmag]
        have := (nD.mono (mant_nonneg t) (by omega : N ≤ N + (expVal none).natAbs + 3)).lo
        exact le_trans (sub_le_self _ htiny) this
      · rw [hmag]
        have := (nD.mono (mant_nonneg t) (by omega : N ≤ N + (expVal none).natAbs + 3)).hi
        exact le_trans this (le_add_of_nonneg_right htiny)
    | some e =>
      have hev : expVal (some e) = if e.2.1 = [0x2D] then -(decVal e.2.2 : Int) else (decVal e.2.2 : Int) := rfl
      rw [hx, hev] at he
      have hmag : mag t = mant t * 10 ^ expVal (some e) := by rw [mag_eq, hx]
      rw [hmag, hev]
      unfold expF
      dsimp only
      by_cases hm : e.2.1 = [0x2D]
      · rw [if_pos hm] at he
        rw [if_pos hm, if_pos hm]
        have hE : decVal e.2.2 ≤ 307 := by rw [abs_le] at he; omega
        obtain ⟨y, hy, ny⟩ := h01 _ hE
        have hab : (-(decVal e.2.2 : Int)).natAbs = decVal e.2.2 := by omega
        have hz : (10 : ℚ) ^ (-(decVal e.2.2 : Int)) = 1 / 10 ^ decVal e.2.2 := by rw [zpow_neg, zpow_natCast, one_div]
        rw [hy, mul, hab, hz]
        generalize decVal e.2.2 = E at *
        have hpr := nD.mul ny (mant_nonneg t) (by positivity)
        have hy0 : 0 ≤ y := ny.nonneg (by positivity)
        have hDy : 0 ≤ D * y := mul_nonneg hD0 hy0
        have hv0 : 0 ≤ mant t * (1 / 10 ^ E) := mul_nonneg (mant_nonneg t) (by positivity)
        rcases rnd_nonneg hDy with ⟨r, hr1, hr0⟩ | hr1
        · right
          rw [hr1]
          have hrel := rnd_rel hr1
          rw [abs_of_nonneg hDy, abs_le] at hrel
          refine ⟨r, hr0, by rw [hfin], ?_, ?_⟩
          · have h1 : D * y * (1 - uu) - 1 / 2 ^ 1075 ≤ r := by
              generalize (1 : ℚ) / 2 ^ 1075 = tiny at *
              have : D * y * (1 - uu) = D * y - D * y * (1 / 2 ^ 53) := by ring
              rw [this]; linarith [hrel.1]
            refine le_trans (sub_le_sub_right ?_ _) h1
            calc mant t * (1 / 10 ^ E) * (1 - uu) ^ (N + E + 3) = mant t * (1 / 10 ^ E) * (1 - uu) ^ (N + (E + 2)) * (1 - uu) := by
                  rw [show N + E + 3 = N + (E + 2) + 1 by omega, pow_succ]; ring
              _ ≤ D * y * (1 - uu) := mul_le_mul_of_nonneg_right hpr.lo (le_of_lt one_sub_pos)
          · have h1 : r ≤ D * y * (1 + uu) + 1 / 2 ^ 1075 := by
              generalize (1 : ℚ) / 2 ^ 1075 = tiny at *
              have : D * y * (1 + uu) = D * y + D * y * (1 / 2 ^ 53) := by ring
              rw [this]; linarith [hrel.2]
            refine le_trans h1 (add_le_add_left ?_ _)
            calc D * y * (1 + uu) ≤ mant t * (1 / 10 ^ E) * (1 + uu) ^ (N + (E + 2)) * (1 + uu) :=
                  mul_le_mul_of_nonneg_right hpr.hi (by norm_num)
              _ = _ := by rw [show N + E + 3 = N + (E + 2) + 1 by omega, pow_succ]; ring
        · left
          rw [hr1, hinf]
          refine ⟨rfl, ?_⟩
          have h1 := rnd_inf_ge hDy hr1
          have h2 := (hpr.mono hv0 (by omega : N + (E + 2) ≤ N + E + 3)).hi
          exact le_trans (by norm_num) (le_trans h1 h2)
      · rw [if_neg hm] at he
        rw [if_neg hm, if_neg hm]
        have hE : decVal e.2.2 ≤ 307 := by rw [abs_le] at he; omega
        obtain ⟨P, hP, nP⟩ := hp.near (decVal e.2.2) (by omega)
        have hab : ((decVal e.2.2 : Int)).natAbs = decVal e.2.2 := by omega
        rw [hP, mul, hab, zpow_natCast]
        generalize decVal e.2.2 = E at *
        have hpr := nD.mul nP (mant_nonneg t) (by positivity)
        have hPp : (0 : ℚ) < P := nP.pos (by positivity)
        have hPi : 0 < P := by exact_mod_cast hPp
        have hP1 : (1 : ℚ) ≤ P := by exact_mod_cast hPi
        have hDP : 0 ≤ D * P := mul_nonneg hD0 (le_of_lt hPp)
        have hv0 : 0 ≤ mant t * 10 ^ E := mul_nonneg (mant_nonneg t) (by positivity)
        rcases rnd_nonneg hDP with ⟨r, hr1, hr0⟩ | hr1
        · right
          rw [hr1]
          have hnorm : D * P = 0 ∨ 1 / 2 ^ 1022 ≤ D * P := by
            rcases hD with hz | hz
            · left; rw [hz, zero_mul]
            · right
              calc (1 : ℚ) / 2 ^ 1022 = 1 / 2 ^ 1022 * 1 := (mul_one _).symm
                _ ≤ D * P := mul_le_mul hz hP1 (by norm_num) hD0
          have hn := ((rnd_near hr1 hnorm).trans hpr).mono hv0 (by omega : 1 + (N + 2) ≤ N + E + 3)
          exact ⟨r, hr0, by rw [hfin], le_trans (sub_le_self _ htiny) hn.lo, le_trans hn.hi (le_add_of_nonneg_right htiny)⟩
        · left
          rw [hr1, hinf]
          refine ⟨rfl, ?_⟩
          have h1 := rnd_inf_ge hDP hr1
          have h2 := (hpr.mono hv0 (by omega : N + 2 ≤ N + E + 3)).hi
          exact le_trans (by norm_num) (le_trans h1 h2)

/-! ## C109 -/

/-- C109: a JSON number with at most 307 decimals and an exponent between -307 and 307 is never read as NaN, and the text is
consumed as far as the number reaches. Missing: longer fractions and exponents, see the violations. -/
theorem C109_no_nan_partial {lib : Lib} (hp : Pow10Ok lib) (h01 : Pow01Near lib) (t : NumTok) (h : t.WF)
    (hf : (t.frac.getD []).length ≤ 307) (he : |expVal t.exp| ≤ 307) (rest : Bytes) (hr : StopNum rest) (d : Dbl) (r : Bytes)
    (hd : readNumber lib (t.text ++ rest) = .ok (d, r)) : d ≠ .nan ∧ r = rest := by
  rcases read_outcome hp h01 t h hf he rest hr with ⟨h1, -⟩ | ⟨h1, -⟩ | ⟨a, -, h1, -⟩
  · rw [h1] at hd; cases hd
  · rw [h1] at hd
    obtain ⟨e1, e2⟩ := Prod.mk.inj (Res.ok.inj hd)
    exact ⟨by rw [← e1]; simp, e2.symm⟩
  · rw [h1] at hd
    obtain ⟨e1, e2⟩ := Prod.mk.inj (Res.ok.inj hd)
    exact ⟨by rw [← e1]; simp, e2.symm⟩

/-- C109: below 2^1022 such a number is read as a finite double, without error. -/
theorem C109_finite_partial {lib : Lib} (hp : Pow10Ok lib) (h01 : Pow01Near lib) (t : NumTok) (h : t.WF)
    (hf : (t.frac.getD []).length ≤ 307) (he : |expVal t.exp| ≤ 307) (rest : Bytes) (hr : StopNum rest)
    (hi : (decVal t.int : ℚ) < 2 ^ 1022) (hm : mag t < 2 ^ 1022) :
    ∃ r : ℚ, readNumber lib (t.text ++ rest) = .ok (.fin r, rest) := by
  have hl := int_length h hi
  have hs : steps t ≤ 3000 := by unfold steps; rw [abs_le] at he; omega
  have two : ∀ n : Nat, n ≤ 3000 → (1 + uu) ^ n ≤ 2 := by
    intro n hn
    refine le_trans (one_add_pow_le (by omega)) ?_
    have : (n : ℚ) ≤ 3000 := by exact_mod_cast hn
    have h2 : (n : ℚ) * (2 * uu) ≤ 3000 * (2 * uu) := mul_le_mul_of_nonneg_right this (by norm_num)
    have h3 : (3000 : ℚ) * (2 * uu) ≤ 1 := by norm_num
    linarith
  have no : ∀ (v : ℚ) (n : Nat), 0 ≤ v → v < 2 ^ 1022 → n ≤ 3000 → ¬ 2 ^ 1023 ≤ v * (1 + uu) ^ n := by
    intro v n hv0 hv hn hc
    have h1 : v * (1 + uu) ^ n ≤ v * 2 := mul_le_mul_of_nonneg_left (two n hn) hv0
    have h2 : v * 2 < 2 ^ 1022 * 2 := by linarith
    have h3 : (2 : ℚ) ^ 1022 * 2 = 2 ^ 1023 := by norm_num
    rw [h3] at h2
    exact absurd (lt_of_le_of_lt (le_trans hc h1) h2) (lt_irrefl _)
  rcases read_outcome hp h01 t h hf he rest hr with ⟨-, h2⟩ | ⟨-, h2⟩ | ⟨a, -, h1, -⟩
  · exact absurd h2 (no _ _ (by positivity) hi (by omega))
  · exact absurd h2 (no _ _ (mag_nonneg t) hm hs)
  · exact ⟨_, h1⟩

/-- C109 does not hold for zero with a large exponent: `0e309` is zero times infinity, that is NaN (parser.h:737), which is
printed as infinity. -/
theorem C109_violation_zero {lib : Lib} (hp : Pow10Ok lib) : readNumber lib (ascii "0e309") = .ok (.nan, []) := by
  have := readNumber_small lib ⟨false, [48], none, some (0x65, [], [51, 48, 57])⟩ (by
    refine ⟨⟨⟨by simp, by decide⟩, fun _ => rfl⟩, by simp, ?_⟩
    intro e he; cases he
    exact ⟨Or.inl rfl, Or.inl rfl, by simp, by decide⟩) (by intro e he; cases he; decide) (by decide) [] (by intro c r h; cases h)
  rw [show ascii "0e309" = NumTok.text ⟨false, [48], none, some (0x65, [], [51, 48, 57])⟩ ++ [] by decide +kernel, this]
  unfold expF fracF
  dsimp only
  rw [if_neg (by decide : ¬ ([] : Bytes) = [0x2D]), show decVal [51, 48, 57] = 309 by decide, hp.inf 309 (le_refl _)]
  decide +kernel

/-- C109 does not hold for long fractions: with 309 decimals, the first of them not zero, the number collected overflows, and so
does the power of ten; infinity divided by infinity is NaN (parser.h:672, 681). -/
theorem C109_violation_fraction {lib : Lib} (hp : Pow10Ok lib) :
    readNumber lib (ascii "0." ++ List.replicate 309 0x39) = .ok (.nan, []) := by
  have hd : ∀ c ∈ List.replicate 309 0x39, IsDig c := by
    intro c hc; rw [List.eq_of_mem_replicate hc]; decide
  have := readNumber_small lib ⟨false, [48], some (List.replicate 309 0x39), none⟩ (by
    refine ⟨⟨⟨by simp, by decide⟩, fun _ => rfl⟩, ?_, by simp⟩
    intro e he; cases he
    exact ⟨by decide, hd⟩) (by intro e he; cases he) (by decide) [] (by intro c r h; cases h)
  rw [show ascii "0." ++ List.replicate 309 0x39 = NumTok.text ⟨false, [48], some (List.replicate 309 0x39), none⟩ ++ [] by decide +kernel, this]
  unfold expF fracF
  dsimp only
  rw [List.length_replicate, hp.inf 309 (le_refl _), show (fracLoop (.fin 0) 0 (List.replicate 309 0x39)).1 = .inf false by decide +kernel]
  decide +kernel

/-- A number in range is read as infinity when its exponent alone is not: `0.001e310`. -/
theorem C109_violation_overflow {lib : Lib} (hp : Pow10Ok lib) : readNumber lib (ascii "0.001e310") = .ok (.inf false, []) ∧
    mag ⟨false, [48], some [48, 48, 49], some (0x65, [], [51, 49, 48])⟩ = 10 ^ 307 := by
  refine ⟨?_, by rw [mag_eq]; unfold mant expVal; norm_num [decVal]⟩
  have := readNumber_small lib ⟨false, [48], some [48, 48, 49], some (0x65, [], [51, 49, 48])⟩ (by
    refine ⟨⟨⟨by simp, by decide⟩, fun _ => rfl⟩, ?_, ?_⟩
    · intro e he; cases he; exact ⟨by simp, by decide⟩
    · intro e he; cases he
      exact ⟨Or.inl rfl, Or.inl rfl, by simp, by decide⟩) (by intro e he; cases he; decide) (by decide) [] (by intro c r h; cases h)
  rw [show ascii "0.001e310" = NumTok.text ⟨false, [48], some [48, 48, 49], some (0x65, [], [51, 49, 48])⟩ ++ [] by decide +kernel, this]
  unfold expF fracF
  dsimp only
  rw [if_neg (by decide : ¬ ([] : Bytes) = [0x2D]), show decVal [51, 49, 48] = 310 by decide, hp.inf 310 (by decide),
    show ([48, 48, 49] : Bytes).length = 3 from rfl, hp.exact 3 (by decide)]
  decide +kernel

/-- `-12.50e-3`. -/
def sampleTok : NumTok := ⟨true, [49, 50], some [53, 48], some (0x65, [0x2D], [51])⟩

theorem sampleTok_wf : sampleTok.WF := by
  refine ⟨⟨⟨by decide, by decide⟩, by decide⟩, ?_, ?_⟩
  · intro e he; cases he; exact ⟨by simp, by decide⟩
  · intro e he; cases he; exact ⟨Or.inl rfl, Or.inr (Or.inr rfl), by simp, by decide⟩

example : sampleTok.text = ascii "-12.50e-3" ∧ (sampleTok.frac.getD []).length ≤ 307 ∧ |expVal sampleTok.exp| ≤ 307 ∧
    StopNum (ascii ", 1") ∧ (decVal sampleTok.int : ℚ) < 2 ^ 1022 ∧ mag sampleTok < 2 ^ 1022 := by
  refine ⟨by decide +kernel, by decide, by decide, ?_, ?_, ?_⟩
  · intro c r h
    rw [show ascii ", 1" = 0x2C :: ascii " 1" by decide +kernel] at h
    cases h
    decide
  · norm_num [sampleTok, decVal]
  · norm_num [mag, sampleTok, decVal, expVal]

/-! ## C110 -/

/-- C110: the double read differs from the number written by a relative error of at most `steps t` times 2^-52 (and one half of
the smallest double); `steps t` counts four for a digit before the dot, two for one behind it and one for every unit of the
exponent. -/
theorem C110_accuracy_partial {lib : Lib} (hp : Pow10Ok lib) (h01 : Pow01Near lib) (t : NumTok) (h : t.WF)
    (hf : (t.frac.getD []).length ≤ 307) (he : |expVal t.exp| ≤ 307) (hi : (decVal t.int : ℚ) < 2 ^ 1022) (rest : Bytes)
    (hr : StopNum rest) (r : ℚ) (s : Bytes) (hd : readNumber lib (t.text ++ rest) = .ok (.fin r, s)) :
    ∃ a : ℚ, 0 ≤ a ∧ r = (if t.neg then -a else a) ∧ abs (a - mag t) ≤ mag t * (steps t / 2 ^ 52) + 1 / 2 ^ 1075 := by
  have hl := int_length h hi
  have hs : steps t ≤ 3000 := by unfold steps; rw [abs_le] at he; omega
  rcases read_outcome hp h01 t h hf he rest hr with ⟨h1, -⟩ | ⟨h1, -⟩ | ⟨a, h0, h1, h2, h3⟩
  · rw [h1] at hd; cases hd
  · rw [h1] at hd
    have e1 := (Prod.mk.inj (Res.ok.inj hd)).1
    exact absurd e1 (by simp)
  · rw [h1] at hd
    have e1 := (Prod.mk.inj (Res.ok.inj hd)).1
    exact ⟨a, h0, (Dbl.fin.inj e1).symm, err_tiny (mag_nonneg t) (by omega) h2 h3⟩

/-- C110 needs the bound on the fraction: with 309 decimals the power of ten is infinite and the number collected divided by it is
zero, whatever the exponent (parser.h:672): `0.00…01e22` with 309 decimals is read as 0, not as 10^-287. -/
theorem C110_violation_fraction {lib : Lib} (hp : Pow10Ok lib) :
    let t : NumTok := ⟨false, [48], some (List.replicate 308 48 ++ [49]), some (0x65, [], [50, 50])⟩
    readNumber lib t.text = .ok (.fin 0, []) ∧ mag t = 1 / 10 ^ 287 := by
  intro t
  have hd : ∀ c ∈ List.replicate 308 48 ++ [49], IsDig c := by
    intro c hc
    rcases List.mem_append.1 hc with h | h
    · rw [List.eq_of_mem_replicate h]; decide
    · rw [List.mem_singleton.1 h]; decide
  have := readNumber_small lib t (by
    refine ⟨⟨⟨by simp [t], by decide⟩, fun _ => rfl⟩, ?_, ?_⟩
    · intro e he; cases he
      exact ⟨by decide +kernel, hd⟩
    · intro e he; cases he
      exact ⟨Or.inl rfl, Or.inl rfl, by simp, by decide⟩) (by intro e he; cases he; decide) (by decide) [] (by intro c r h; cases h)
  have hlen : (List.replicate 308 48 ++ [49]).length = 309 := by decide +kernel
  have hdec : decVal (List.replicate 308 48 ++ [49]) = 1 := by decide +kernel
  refine ⟨?_, ?_⟩
  · rw [← List.append_nil t.text, this]
    simp only [t]
    unfold expF fracF
    dsimp only
    rw [if_neg (by decide : ¬ ([] : Bytes) = [0x2D]), show decVal [50, 50] = 22 by decide,
      hlen, hp.inf 309 (le_refl _), hp.exact 22 (by decide)]
    decide +kernel
  · rw [mag_eq]
    unfold mant expVal
    show ((decVal [48] : Nat) + ((decVal (List.replicate 308 48 ++ [49]) : Nat) : ℚ) / 10 ^ (List.replicate 308 48 ++ [49]).length) *
      10 ^ (if ([] : Bytes) = [0x2D] then -(decVal [50, 50] : Int) else (decVal [50, 50] : Int)) = 1 / 10 ^ 287
    rw [hdec, hlen, if_neg (by decide), show decVal [50, 50] = 22 by decide, show decVal [48] = 0 by decide]
    norm_num

/-- C110 in one number: the relative error is below 2^-40. -/
theorem C110_relative {lib : Lib} (hp : Pow10Ok lib) (h01 : Pow01Near lib) (t : NumTok) (h : t.WF)
    (hf : (t.frac.getD []).length ≤ 307) (he : |expVal t.exp| ≤ 307) (hi : (decVal t.int : ℚ) < 2 ^ 1022) (rest : Bytes)
    (hr : StopNum rest) (r : ℚ) (s : Bytes) (hd : readNumber lib (t.text ++ rest) = .ok (.fin r, s)) :
    ∃ a : ℚ, 0 ≤ a ∧ r = (if t.neg then -a else a) ∧ abs (a - mag t) ≤ mag t * (1 / 2 ^ 40) + 1 / 2 ^ 1075 := by
  obtain ⟨a, h0, h1, h2⟩ := C110_accuracy_partial hp h01 t h hf he hi rest hr r s hd
  refine ⟨a, h0, h1, le_trans h2 (add_le_add_left (mul_le_mul_of_nonneg_left ?_ (mag_nonneg t)) _)⟩
  have hl := int_length h hi
  have hs : steps t ≤ 3000 := by unfold steps; rw [abs_le] at he; omega
  have : (steps t : ℚ) ≤ 3000 := by exact_mod_cast hs
  rw [div_le_iff₀ (by positivity)]
  refine le_trans this (by norm_num)

/-! ## C111 -/

/-- Sign applied. -/
def signed (s : Bool) : Dbl → Dbl := fun d => if s then neg d else d

/-- C111, integers of 64 bits: correctly rounded. -/
theorem C111_integer (lib : Lib) (t : NumTok) (h : t.WF) (hfr : t.frac = none) (hex : t.exp = none) (hi : decVal t.int < 2 ^ 64)
    (rest : Bytes) (hr : StopNum rest) : readNumber lib (t.text ++ rest) = .ok (signed t.neg (rnd (mag t)), rest) := by
  rw [readNumber_small lib t h (by rw [hex]; intro x hx; cases hx) hi rest hr, hfr, hex]
  have hm : mag t = decVal t.int := by rw [mag_eq]; unfold mant; rw [hfr, hex]; simp [expVal, decVal]
  rw [hm]
  rfl

/-- C111: what correctly rounded means – the result is a multiple of the distance of doubles there, nearest to the exact value, and the
even one of two equally near. -/
theorem C111_nearest {q r : ℚ} (h : rnd q = .fin r) :
    ∃ k : Int, r = k * ulp q ∧ |r - q| ≤ ulp q / 2 ∧ (|r - q| = ulp q / 2 → k % 2 = 0) := by
  by_cases hq : q = 0
  · subst hq
    rw [rnd_zero] at h
    cases h
    exact ⟨0, by simp, by rw [sub_self, abs_zero]; exact div_nonneg (ulp_pos 0).le (by norm_num), fun _ => rfl⟩
  · obtain ⟨hr, -⟩ := rnd_fin hq h
    refine ⟨roundEven (q / ulp q), hr, rnd_err h, ?_⟩
    intro ht
    have hp := ulp_pos q
    have e : r - q = ((roundEven (q / ulp q) : ℚ) - q / ulp q) * ulp q := by rw [hr]; unfold rho; field_simp
    rw [e, abs_mul, abs_of_pos hp] at ht
    have ht : |(roundEven (q / ulp q) : ℚ) - q / ulp q| = 1 / 2 := by
      have h2 : |(roundEven (q / ulp q) : ℚ) - q / ulp q| * ulp q = 1 / 2 * ulp q := by rw [ht]; ring
      exact mul_right_cancel₀ hp.ne' h2
    generalize q / ulp q = x at ht
    have hf : x.floor = ⌊x⌋ := rfl
    have hl := Int.floor_le x
    have hu := Int.lt_floor_add_one x
    unfold roundEven at ht ⊢
    dsimp only at ht ⊢
    rw [hf] at ht ⊢
    split_ifs at ht ⊢ with h1 h2 h3
    · exfalso; rw [abs_of_nonpos (by linarith)] at ht; linarith
    · exfalso
      push_cast at ht
      rw [abs_of_nonneg (by linarith)] at ht; linarith
    · exact h3
    · omega

/-- Two ties: 2^53 + 1 and 2^53 + 3. -/
example : rnd 9007199254740993 = .fin 9007199254740992 ∧ rnd 9007199254740995 = .fin 9007199254740996 := by decide +kernel

/-- C111, fractions below one of at most 22 decimals whose digits are an integer below 2^53: correctly rounded. -/
theorem C111_fraction {lib : Lib} (hp : Pow10Ok lib) (t : NumTok) (h : t.WF) (f : Bytes) (hi : t.int = [48]) (hfr : t.frac = some f)
    (hex : t.exp = none) (hl : f.length ≤ 22) (hv : decVal f < 2 ^ 53) (rest : Bytes) (hr : StopNum rest) :
    readNumber lib (t.text ++ rest) = .ok (signed t.neg (rnd (mag t)), rest) := by
  have hd := (h.frac f (by rw [hfr]; rfl)).2
  rw [readNumber_small lib t h (by rw [hex]; intro x hx; cases hx) (by rw [hi]; decide) rest hr, hfr, hex]
  have hm : mag t = (decVal f : ℚ) / 10 ^ f.length := by
    rw [mag_eq]; unfold mant; rw [hi, hfr, hex]; simp [expVal, decVal]
  have e0 : ofNat (decVal t.int) = .fin 0 := by rw [hi]; decide +kernel
  have ef : (fracLoop (.fin 0) 0 f).1 = .fin ((decVal f : Nat) : ℚ) := by
    have := fracLoop_exact f hd 0 0 (by rw [← decVal_eq]; exact hv)
    rw [decVal_eq]
    simpa using this
  have hpos : (10 : ℚ) ^ f.length ≠ 0 := by positivity
  have key : expF lib (fracF lib (ofNat (decVal t.int)) (some f)) none = rnd (mag t) := by
    unfold expF fracF
    dsimp only
    rw [e0, ef, hp.exact _ hl, div, if_neg hpos, hm]
    have hlt := decVal_lt f hd
    have hle : (decVal f : ℚ) / 10 ^ f.length ≤ maxDbl := by
      refine le_trans ((div_le_one (by positivity)).2 (by exact_mod_cast le_of_lt hlt)) ?_
      unfold maxDbl; norm_num
    obtain ⟨r, h1, h2, h3⟩ := rnd_finite (by positivity) hle
    rw [h1, add, zero_add]
    -- rounding twice is rounding once
    exact rnd_idem h1
  rw [key]
  rfl

/-- C111, integers below 2^53 with an exponent up to 22: correctly rounded. -/
theorem C111_scaled {lib : Lib} (hp : Pow10Ok lib) (t : NumTok) (h : t.WF) (hfr : t.frac = none) (hi : decVal t.int < 2 ^ 53)
    (h0 : 0 ≤ expVal t.exp) (h22 : expVal t.exp ≤ 22) (hm : ∀ e ∈ t.exp, e.2.1 ≠ [0x2D]) (rest : Bytes) (hr : StopNum rest) :
    readNumber lib (t.text ++ rest) = .ok (signed t.neg (rnd (mag t)), rest) := by
  rw [readNumber_small lib t h (expFits_of (by rw [abs_le]; omega)) (by omega) rest hr, hfr]
  have e0 : ofNat (decVal t.int) = .fin (decVal t.int) := by
    have := rnd_int (decVal t.int) (by rw [abs_of_nonneg (by omega)]; omega)
    exact_mod_cast this
  have key : expF lib (fracF lib (ofNat (decVal t.int)) none) t.exp = rnd (mag t) := by
    have hmant : mant t = decVal t.int := by unfold mant; rw [hfr]; simp [decVal]
    rw [mag_eq, hmant]
    unfold fracF
    dsimp only
    cases hx : t.exp with
    | none => simp [expF, expVal, ofNat]
    | some e =>
      have hne := hm e (by rw [hx]; rfl)
      have hev : expVal (some e) = (decVal e.2.2 : Int) := by unfold expVal; dsimp only; rw [if_neg hne]
      rw [hx, hev] at h22
      unfold expF
      dsimp only
      rw [if_neg hne, e0, hp.exact _ (by omega), mul, hev, zpow_natCast]
  rw [key]
  rfl

/-- C111 does not hold for numbers with integer part and fraction: `1.14` is the sum of 1 and the double next to 0.14, rounded
again, and not the double next to 1.14 (parser.h:704). -/
theorem C111_violation_sum {lib : Lib} (hp : Pow10Ok lib) : ∃ r : ℚ, readNumber lib (ascii "1.14") = .ok (.fin r, []) ∧
    rnd (mag ⟨false, [49], some [49, 52], none⟩) ≠ .fin r := by
  have := readNumber_small lib ⟨false, [49], some [49, 52], none⟩ (by
    refine ⟨⟨⟨by simp, by decide⟩, by decide⟩, ?_, by simp⟩
    intro e he; cases he; exact ⟨by simp, by decide⟩) (by intro e he; cases he) (by decide) [] (by intro c r h; cases h)
  refine ⟨5134103575202366 / 2 ^ 52, ?_, by decide +kernel⟩
  rw [show ascii "1.14" = NumTok.text ⟨false, [49], some [49, 52], none⟩ ++ [] by decide +kernel, this]
  unfold expF fracF
  dsimp only
  rw [show ([49, 52] : Bytes).length = 2 from rfl, hp.exact 2 (by decide)]
  decide +kernel

/-- C111 does not hold for negative exponents: `3e-1` is three times the double next to 0.1, which is not the double next to
0.3; so `3e-1` and `0.3` become different numbers (parser.h:733). -/
theorem C111_violation_negative {lib : Lib} (hp : Pow10Ok lib) (h01 : lib.pow01 1 = rnd (1 / 10)) :
    ∃ r r' : ℚ, readNumber lib (ascii "3e-1") = .ok (.fin r, []) ∧ readNumber lib (ascii "0.3") = .ok (.fin r', []) ∧ r ≠ r' ∧
      rnd (3 / 10) = .fin r' := by
  have h1 := readNumber_small lib ⟨false, [51], none, some (0x65, [0x2D], [49])⟩ (by
    refine ⟨⟨⟨by simp, by decide⟩, by decide⟩, by simp, ?_⟩
    intro e he; cases he
    exact ⟨Or.inl rfl, Or.inr (Or.inr rfl), by simp, by decide⟩) (by intro e he; cases he; decide) (by decide) [] (by intro c r h; cases h)
  have h2 := readNumber_small lib ⟨false, [48], some [51], none⟩ (by
    refine ⟨⟨⟨by simp, by decide⟩, by decide⟩, ?_, by simp⟩
    intro e he; cases he; exact ⟨by simp, by decide⟩) (by intro e he; cases he) (by decide) [] (by intro c r h; cases h)
  refine ⟨5404319552844596 / 2 ^ 54, 5404319552844595 / 2 ^ 54, ?_, ?_, by norm_num, by decide +kernel⟩
  · rw [show ascii "3e-1" = NumTok.text ⟨false, [51], none, some (0x65, [0x2D], [49])⟩ ++ [] by decide +kernel, h1]
    unfold expF fracF
    dsimp only
    rw [if_pos rfl, show ((decVal [49] : Nat) : Int) = 1 by decide, h01]
    decide +kernel
  · rw [show ascii "0.3" = NumTok.text ⟨false, [48], some [51], none⟩ ++ [] by decide +kernel, h2]
    unfold expF fracF
    dsimp only
    rw [show ([51] : Bytes).length = 1 from rfl, hp.exact 1 (by decide)]
    decide +kernel

example : exactLib.pow01 1 = rnd (1 / 10) := by decide +kernel

/-! ## C112 -/

/-- Mantissa of a short token: two roundings. -/
theorem short_mant {lib : Lib} (hp : Pow10Ok lib) (t : NumTok) (h : t.WF) (hi : decVal t.int < 2 ^ 53)
    (hl : (t.frac.getD []).length ≤ 22) (hv : decVal (t.frac.getD []) < 2 ^ 53) :
    ∃ D : ℚ, fracF lib (ofNat (decVal t.int)) t.frac = .fin D ∧ Near 2 D (mant t) := by
  have e0 : ofNat (decVal t.int) = .fin (decVal t.int) := by
    have := rnd_int (decVal t.int) (by rw [abs_of_nonneg (by omega)]; omega)
    exact_mod_cast this
  unfold mant
  rw [e0]
  cases hfr : t.frac with
  | none =>
    refine ⟨decVal t.int, rfl, ?_⟩
    have := (Near.refl (decVal t.int : ℚ)).mono (m := 2) (by positivity) (by omega)
    simpa [decVal] using this
  | some f =>
    have hd := (h.frac f (by rw [hfr]; rfl)).2
    rw [hfr] at hl hv
    dsimp only [Option.getD_some] at hl hv ⊢
    have ef : (fracLoop (.fin 0) 0 f).1 = .fin ((decVal f : Nat) : ℚ) := by
      have := fracLoop_exact f hd 0 0 (by rw [← decVal_eq]; exact hv)
      rw [decVal_eq]
      simpa using this
    have hpos : (10 : ℚ) ^ f.length ≠ 0 := by positivity
    unfold fracF
    dsimp only
    rw [ef, hp.exact _ hl, div, if_neg hpos]
    have hlt := decVal_lt f hd
    have hle1 : (decVal f : ℚ) / 10 ^ f.length ≤ 1 := (div_le_one (by positivity)).2 (by exact_mod_cast le_of_lt hlt)
    obtain ⟨F, h1, h2, h3⟩ := rnd_mono (by positivity) hle1 (by have := rnd_int 1 (by norm_num); exact_mod_cast this : rnd (1 : ℚ) = .fin 1)
    have hnF : (decVal f : ℚ) / 10 ^ f.length = 0 ∨ 1 / 2 ^ 1022 ≤ (decVal f : ℚ) / 10 ^ f.length := by
      rcases Nat.eq_zero_or_pos (decVal f) with hz | hz
      · left; rw [hz]; simp
      · right
        have hz1 : (1 : ℚ) ≤ decVal f := by exact_mod_cast hz
        rw [le_div_iff₀ (by positivity)]
        refine le_trans ?_ hz1
        have : (10 : ℚ) ^ f.length ≤ 10 ^ 22 := pow_le_pow_right₀ (by norm_num) hl
        calc (1 : ℚ) / 2 ^ 1022 * 10 ^ f.length ≤ 1 / 2 ^ 1022 * 10 ^ 22 := mul_le_mul_of_nonneg_left this (by positivity)
          _ ≤ 1 := by norm_num
    have nF := rnd_near h1 hnF
    have nI : Near 1 (decVal t.int : ℚ) (decVal t.int : ℚ) := (Near.refl _).mono (by positivity) (by omega)
    have nS := nI.add nF
    rw [h1, add]
    have hI53 : (decVal t.int : ℚ) ≤ 2 ^ 53 := by exact_mod_cast le_of_lt hi
    obtain ⟨D, d1, d2, -⟩ := rnd_finite (by positivity : 0 ≤ (decVal t.int : ℚ) + F)
      (le_trans (by linarith : (decVal t.int : ℚ) + F ≤ 2 ^ 53 + 1) (by unfold maxDbl; norm_num))
    refine ⟨D, d1, ?_⟩
    have hnS : (decVal t.int : ℚ) + F = 0 ∨ 1 / 2 ^ 1022 ≤ (decVal t.int : ℚ) + F := by
      rcases Nat.eq_zero_or_pos (decVal t.int) with hz | hz
      · rw [hz, Nat.cast_zero, zero_add]
        rcases hnF with hz' | hz'
        · left; rw [hz', rnd_zero] at h1; cases h1; rfl
        · right; exact rnd_normal hz' h1
      · right
        have hz1 : (1 : ℚ) ≤ decVal t.int := by exact_mod_cast hz
        exact le_trans (by norm_num : (1 : ℚ) / 2 ^ 1022 ≤ 1) (by linarith)
    exact (rnd_near d1 hnS).trans nS

/-- C112: a JSON number without exponent, with as many decimals as the serializer prints and at most fifteen digits, keeps its
value when it is read and printed again. -/
theorem C112_number {lib : Lib} (hl : LgOk lib) (hq : Pow01Ok lib) (hp : Pow10Ok lib) (u : Bool) (prec : Nat) (t : NumTok) (h : t.WF)
    (hex : t.exp = none) (hk : (t.frac.getD []).length ≤ min prec 9) (h15 : mag t * 10 ^ min prec 9 ≤ 10 ^ 15)
    (hlo : 12 / 1000 ≤ mag t) (hhi : mag t ≤ 99999998) (rest : Bytes) (hr : StopNum rest) :
    ∃ (d : Dbl) (t' : NumTok), readNumber lib (t.text ++ rest) = .ok (d, rest) ∧ writeDouble lib u prec d = .ok t'.text ∧ t'.WF ∧
      t'.neg = t.neg ∧ mag t' = mag t ∧ t'.exp = none ∧ Canon (min prec 9) t' := by
  have hk9 : (t.frac.getD []).length ≤ 9 := le_trans hk (min_le_right _ _)
  have hmm : mag t = mant t := by rw [mag_eq, hex]; simp [expVal]
  have hfd : ∀ c ∈ t.frac.getD [], IsDig c := by
    cases hfr : t.frac with
    | none => simp
    | some f => exact (h.frac f (by rw [hfr]; rfl)).2
  have hfv : decVal (t.frac.getD []) < 2 ^ 53 := by
    have h1 := decVal_lt _ hfd
    have h2 : 10 ^ (t.frac.getD []).length ≤ 10 ^ 9 := Nat.pow_le_pow_right (by norm_num) hk9
    omega
  have hiv : decVal t.int < 2 ^ 53 := by
    have h1 : (decVal t.int : ℚ) ≤ mant t := by
      unfold mant
      have : (0 : ℚ) ≤ (decVal (t.frac.getD []) : ℚ) / 10 ^ (t.frac.getD []).length := by positivity
      linarith
    rw [← hmm] at h1
    have h2 : (decVal t.int : ℚ) ≤ (99999998 : Nat) := by push_cast; linarith
    have h3 : decVal t.int ≤ 99999998 := by exact_mod_cast h2
    omega
  obtain ⟨D, d1, d2⟩ := short_mant hp t h hiv (by omega) hfv
  rw [← hmm] at d2
  have hread := readNumber_small lib t h (by rw [hex]; intro x hx; cases hx) (by omega) rest hr
  rw [hex, d1] at hread
  unfold expF at hread
  dsimp only at hread
  have hDlo : 11 / 1000 ≤ D := by
    refine le_trans ?_ d2.lo
    calc (11 : ℚ) / 1000 ≤ 12 / 1000 * (1 - uu) ^ 2 := by norm_num
      _ ≤ _ := mul_le_mul_of_nonneg_right hlo (by norm_num)
  have hDhi : D ≤ 99999999 := by
    refine le_trans d2.hi ?_
    calc mag t * (1 + uu) ^ 2 ≤ 99999998 * (1 + uu) ^ 2 := mul_le_mul_of_nonneg_right hhi (by norm_num)
      _ ≤ 99999999 := by norm_num
  have hD0 : 0 < D := by linarith
  -- the integer of all digits
  obtain ⟨K, hK⟩ : ∃ K : Nat, (K : ℚ) = mag t * 10 ^ min prec 9 := by
    refine ⟨decVal t.int * 10 ^ min prec 9 + decVal (t.frac.getD []) * 10 ^ (min prec 9 - (t.frac.getD []).length), ?_⟩
    rw [hmm]
    unfold mant
    push_cast
    have : (10 : ℚ) ^ min prec 9 = 10 ^ (t.frac.getD []).length * 10 ^ (min prec 9 - (t.frac.getD []).length) := by
      rw [← pow_add]; congr 1; omega
    rw [this]
    field_simp
  have hP : (0 : ℚ) < 10 ^ min prec 9 := by positivity
  have hnear : abs (D * 10 ^ min prec 9 - K) ≤ 1 / 4 := by
    rw [hK]
    have e1 : D * 10 ^ min prec 9 - mag t * 10 ^ min prec 9 = (D - mag t) * 10 ^ min prec 9 := by ring
    rw [e1, abs_mul, abs_of_pos hP]
    have e2 : |D - mag t| ≤ mag t * (201 / 100 * uu) := by
      have b1 := d2.lo
      have b2 := d2.hi
      have m0 := mag_nonneg t
      have c1 : mag t * (1 - 201 / 100 * uu) ≤ mag t * (1 - uu) ^ 2 := mul_le_mul_of_nonneg_left (by norm_num) m0
      have c2 : mag t * (1 + uu) ^ 2 ≤ mag t * (1 + 201 / 100 * uu) := mul_le_mul_of_nonneg_left (by norm_num) m0
      have c3 : mag t * (1 - 201 / 100 * uu) = mag t - mag t * (201 / 100 * uu) := by ring
      have c4 : mag t * (1 + 201 / 100 * uu) = mag t + mag t * (201 / 100 * uu) := by ring
      rw [c3] at c1
      rw [c4] at c2
      have f1 := le_trans c1 b1
      have f2 := le_trans b2 c2
      generalize mag t * (201 / 100 * uu) = z at *
      rw [abs_le]
      constructor <;> linarith
    calc |D - mag t| * 10 ^ min prec 9 ≤ mag t * (201 / 100 * uu) * 10 ^ min prec 9 := mul_le_mul_of_nonneg_right e2 (le_of_lt hP)
      _ = mag t * 10 ^ min prec 9 * (201 / 100 * uu) := by ring
      _ ≤ 10 ^ 15 * (201 / 100 * uu) := mul_le_mul_of_nonneg_right h15 (by norm_num)
      _ ≤ 1 / 4 := by norm_num
  have hn : (1 : ℚ) / 2 ^ 1022 ≤ D := le_trans (by norm_num) hDlo
  have hx : D < 2 ^ 1024 := lt_of_le_of_lt hDhi (by norm_num)
  have hrange : -3 < lib.lg D ∧ lib.lg D < 8 := by
    obtain ⟨g1, g2⟩ := hl D hD0
    constructor
    · by_contra hc
      have : (10 : ℚ) ^ (lib.lg D + 1) ≤ 10 ^ (-2 : Int) := zpow_le_zpow_right₀ (by norm_num) (by omega)
      norm_num at this g2
      linarith
    · by_contra hc
      have : (10 : ℚ) ^ (8 : Int) ≤ 10 ^ lib.lg D := zpow_le_zpow_right₀ (by norm_num) (by omega)
      norm_num at this g1
      linarith
  have habs : |(if t.neg then -D else D)| = D := by
    cases t.neg
    · simp [abs_of_pos hD0]
    · simp [abs_of_pos hD0]
  obtain ⟨tok, a1, a2, a3, a5, a6, a4⟩ := C108_nearest hl hq u prec (if t.neg then -D else D) (by rwa [habs]) (by rwa [habs]) (by rwa [habs]) K (by rwa [habs])
  refine ⟨_, tok, hread, ?_, a1, ?_, ?_, a5, a6⟩
  · rw [← a2]
    cases t.neg <;> rfl
  · cases ht : t.neg with
    | false =>
      rw [ht] at a3
      cases hb : tok.neg with
      | false => rfl
      | true => have := a3.1 hb; simp at this; linarith
    | true =>
      rw [ht] at a3
      exact a3.2 (by simp [hD0])
  · rw [a4, hK]
    field_simp

example : (⟨true, [49, 50], some [53, 48], none⟩ : NumTok).text = ascii "-12.50" ∧
    mag ⟨true, [49, 50], some [53, 48], none⟩ = 25 / 2 := by
  refine ⟨by decide +kernel, by norm_num [mag, decVal, expVal]⟩

/-- C112, the text: such a number written without a superfluous final zero is printed as it was read, character by character. -/
theorem C112_text {lib : Lib} (hl : LgOk lib) (hq : Pow01Ok lib) (hp : Pow10Ok lib) (u : Bool) (prec : Nat) (t : NumTok) (h : t.WF)
    (hex : t.exp = none) (hk : ∀ f ∈ t.frac, f.length ≤ min prec 9 ∧ f.getLast? ≠ some 48) (h15 : mag t * 10 ^ min prec 9 ≤ 10 ^ 15)
    (hlo : 12 / 1000 ≤ mag t) (hhi : mag t ≤ 99999998) (rest : Bytes) (hr : StopNum rest) :
    ∃ d : Dbl, readNumber lib (t.text ++ rest) = .ok (d, rest) ∧ writeDouble lib u prec d = .ok t.text := by
  have hk' : (t.frac.getD []).length ≤ min prec 9 := by
    cases hf : t.frac with
    | none => simp
    | some f => exact (hk f (by rw [hf]; rfl)).1
  obtain ⟨d, t', r1, r2, r3, r4, r5, r6, r7⟩ := C112_number hl hq hp u prec t h hex hk' h15 hlo hhi rest hr
  have : t' = t := canon_unique r3 h r6 hex r7 (show Canon (min prec 9) t from hk) r4 r5
  exact ⟨d, r1, by rw [r2, this]⟩

/-- C112, stability: what the serializer prints for a double of moderate size is read as a double that is printed the same. -/
theorem C112_stable {lib : Lib} (hl : LgOk lib) (hq : Pow01Ok lib) (hp : Pow10Ok lib) (u : Bool) (prec : Nat) (q : ℚ)
    (hlo : 1 ≤ |q|) (hhi : |q| ≤ 9999999) (h15 : |q| * 10 ^ min prec 9 ≤ 10 ^ 14) (rest : Bytes) (hr : StopNum rest) :
    ∃ (text : Bytes) (d : Dbl), writeDouble lib u prec (.fin q) = .ok text ∧ readNumber lib (text ++ rest) = .ok (d, rest) ∧
      writeDouble lib u prec d = .ok text := by
  have q0 : 0 < |q| := by linarith
  have hrange : -3 < lib.lg |q| ∧ lib.lg |q| < 8 := by
    obtain ⟨g1, g2⟩ := hl |q| q0
    constructor
    · by_contra hc
      have : (10 : ℚ) ^ (lib.lg |q| + 1) ≤ 10 ^ (-2 : Int) := zpow_le_zpow_right₀ (by norm_num) (by omega)
      norm_num at this g2
      linarith
    · by_contra hc
      have : (10 : ℚ) ^ (8 : Int) ≤ 10 ^ lib.lg |q| := zpow_le_zpow_right₀ (by norm_num) (by omega)
      norm_num at this g1
      linarith
  obtain ⟨tok, t1, t2, -, t4, t5, t6⟩ := C107_fixed hl hq u prec q (le_trans (by norm_num) hlo) (lt_of_le_of_lt hhi (by norm_num)) hrange
  have hP : (1 : ℚ) ≤ 10 ^ min prec 9 := one_le_pow₀ (by norm_num)
  have hP9 : (10 : ℚ) ^ min prec 9 ≤ 10 ^ 9 := pow_le_pow_right₀ (by norm_num) (min_le_right _ _)
  have hP0 : (0 : ℚ) < 10 ^ min prec 9 := by positivity
  have e1 : (1 / 2 + 1 / 2 ^ 22 : ℚ) / 10 ^ min prec 9 ≤ 3 / 4 := by
    rw [div_le_iff₀ hP0]
    norm_num
    linarith
  have e2 := abs_le.1 t6
  have e3 : mag tok * 10 ^ min prec 9 ≤ 10 ^ 15 := by
    have : mag tok ≤ |q| + 3 / 4 := by linarith [e2.2]
    calc mag tok * 10 ^ min prec 9 ≤ (|q| + 3 / 4) * 10 ^ min prec 9 := mul_le_mul_of_nonneg_right this (le_of_lt hP0)
      _ = |q| * 10 ^ min prec 9 + 3 / 4 * 10 ^ min prec 9 := by ring
      _ ≤ 10 ^ 14 + 3 / 4 * 10 ^ 9 := by linarith
      _ ≤ _ := by norm_num
  obtain ⟨d, d1, d2⟩ := C112_text hl hq hp u prec tok t1 t4 t5 e3 (by linarith [e2.1]) (by linarith [e2.2]) rest hr
  exact ⟨tok.text, d, t2, d1, d2⟩

example : (1 : ℚ) ≤ |-(12345 / 1000)| ∧ |-(12345 / 1000 : ℚ)| ≤ 9999999 := by
  rw [abs_of_nonpos (by norm_num)]; norm_num

end Imt.Props
