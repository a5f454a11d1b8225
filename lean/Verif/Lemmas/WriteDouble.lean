import Verif.Model.WriteDouble
import Verif.Lemmas.Fp
import Verif.Lemmas.Ser
/-!
# Facts about `writeDouble`
-/
namespace Imt.Fp
open Imt Imt.Spec
open Imt.Conv (Dbl dblToUInt)

/-- The number a token denotes, without its sign. -/
def mag (t : NumTok) : ℚ :=
  ((decVal t.int : ℚ) + (decVal (t.frac.getD []) : ℚ) / 10 ^ (t.frac.getD []).length) * 10 ^ expVal t.exp

theorem strip_spec (m p : Nat) (h0 : m ≠ 0) (h : m < 10 ^ p) : (strip m p).1 ≠ 0 ∧ 1 ≤ (strip m p).2 ∧ (strip m p).2 ≤ p ∧
    (strip m p).1 < 10 ^ (strip m p).2 ∧ ((strip m p).1 : ℚ) / 10 ^ (strip m p).2 = m / 10 ^ p := by
  induction m using Nat.strong_induction_on generalizing p with
  | _ m ih =>
    have hp : 1 ≤ p := by
      rcases Nat.eq_zero_or_pos p with rfl | hp
      · simp at h; omega
      · exact hp
    rw [strip]
    split
    · next hc =>
      obtain ⟨p, rfl⟩ : ∃ k, p = k + 1 := ⟨p - 1, by omega⟩
      rw [pow_succ] at h
      obtain ⟨h1, h2, h3, h4, h5⟩ := ih (m / 10) (by omega) p (by omega) (by omega)
      rw [Nat.add_sub_cancel]
      refine ⟨h1, h2, by omega, h4, ?_⟩
      rw [h5]
      have hm : (m : ℚ) = ((m / 10 : Nat) : ℚ) * 10 := by
        have : m = m / 10 * 10 := by omega
        exact_mod_cast this
      rw [hm, pow_succ]
      field_simp
    · exact ⟨h0, hp, le_refl _, h, rfl⟩

theorem decVal_snoc (l : Bytes) (c : Nat) : decVal (l ++ [c]) = decVal l * 10 + (c - 48) := by
  unfold decVal; rw [List.foldl_append]; rfl

theorem fixed_spec (d : Nat) : ∀ v, (fixed v (d + 1)).length = d + 1 ∧ (∀ c ∈ fixed v (d + 1), IsDig c) ∧
    decVal (fixed v (d + 1)) = v % 10 ^ (d + 1) := by
  have dig : ∀ v, IsDig (48 + v % 10) := by intro v; unfold IsDig; omega
  induction d with
  | zero =>
    intro v
    refine ⟨rfl, ?_, ?_⟩
    · intro c hc
      rw [fixed, List.mem_singleton] at hc
      · rw [hc]; exact dig v
      · intro d h; omega
    · rw [fixed]
      · simp [decVal]
      · intro d h; omega
  | succ d ih =>
    intro v
    obtain ⟨h1, h2, h3⟩ := ih (v / 10)
    rw [fixed]
    refine ⟨by simp [h1], ?_, ?_⟩
    · intro c hc
      rcases List.mem_append.1 hc with hc | hc
      · exact h2 c hc
      · rw [List.mem_singleton.1 hc]; exact dig v
    · rw [decVal_snoc, h3, Nat.add_sub_cancel_left, pow_succ 10 (d + 1), Nat.mul_comm (10 ^ (d + 1)) 10, Nat.mod_mul]
      omega

/-- The token made of the parts written. -/
def outTok (neg : Bool) (p intp m : Nat) (e : Int) : NumTok where
  neg := neg
  int := Ser.writeUnsigned intp
  frac := if m = 0 then none else some (fixed (strip m p).1 (strip m p).2)
  exp := if e = 0 then none else some (0x65, (if 0 < e then [0x2B] else [0x2D]), Ser.writeUnsigned e.natAbs)

/-- No superfluous decimals: at most `p`, and the last one is not zero. -/
def Canon (p : Nat) (t : NumTok) : Prop := ∀ f ∈ t.frac, f.length ≤ p ∧ f.getLast? ≠ some 48

theorem strip_last (m p : Nat) (h0 : m ≠ 0) : (strip m p).1 % 10 ≠ 0 := by
  induction m using Nat.strong_induction_on generalizing p with
  | _ m ih =>
    rw [strip]
    split
    · exact ih (m / 10) (by omega) _ (by omega)
    · next h => intro hc; exact h ⟨h0, hc⟩

theorem fixed_last (v d : Nat) : (fixed v d).getLast? = some (48 + v % 10) := by
  match d with
  | 0 => rw [fixed]; · rfl
         · intro d h; omega
  | 1 => rw [fixed]; · rfl
         · intro d h; omega
  | d + 2 => rw [fixed]; simp

theorem outTok_canon (neg : Bool) (p intp m : Nat) (e : Int) (hm : m < 10 ^ p) : Canon p (outTok neg p intp m e) := by
  intro f hf
  unfold outTok at hf
  dsimp only at hf
  split at hf
  · cases hf
  · next h0 =>
    cases hf
    obtain ⟨s1, s2, s3, s4, s5⟩ := strip_spec m p h0 hm
    obtain ⟨k, hk⟩ : ∃ k, (strip m p).2 = k + 1 := ⟨(strip m p).2 - 1, by omega⟩
    refine ⟨?_, ?_⟩
    · rw [hk, (fixed_spec k _).1]; omega
    · rw [fixed_last]
      have := strip_last m p h0
      intro h
      have := Option.some.inj h
      omega

theorem outTok_spec (neg : Bool) (p intp m : Nat) (e : Int) (hm : m < 10 ^ p) : (outTok neg p intp m e).WF ∧
    (outTok neg p intp m e).text = (if neg then [0x2D] else []) ++ (Ser.writeUnsigned intp ++ (fracOut p m ++ expOut e)) ∧
    mag (outTok neg p intp m e) = ((intp : ℚ) + m / 10 ^ p) * 10 ^ e := by
  obtain ⟨i1, i2, i3⟩ := Ser.writeUnsigned_spec intp
  obtain ⟨j1, j2, j3⟩ := Ser.writeUnsigned_spec e.natAbs
  have hf : m ≠ 0 → Digits1 (fixed (strip m p).1 (strip m p).2) ∧
      (decVal (fixed (strip m p).1 (strip m p).2) : ℚ) / 10 ^ (fixed (strip m p).1 (strip m p).2).length = m / 10 ^ p := by
    intro h0
    obtain ⟨s1, s2, s3, s4, s5⟩ := strip_spec m p h0 hm
    obtain ⟨k, hk⟩ : ∃ k, (strip m p).2 = k + 1 := ⟨(strip m p).2 - 1, by omega⟩
    obtain ⟨f1, f2, f3⟩ := fixed_spec k (strip m p).1
    rw [← hk] at f1 f2 f3
    refine ⟨⟨by intro he; rw [he] at f1; simp at f1; omega, f2⟩, ?_⟩
    rw [f3, f1, Nat.mod_eq_of_lt s4, s5]
  refine ⟨⟨⟨i1, i3⟩, ?_, ?_⟩, ?_, ?_⟩
  · intro f hfm
    unfold outTok at hfm
    dsimp only at hfm
    split at hfm
    · cases hfm
    · next h0 => cases hfm; exact (hf h0).1
  · intro x hx
    unfold outTok at hx
    dsimp only at hx
    split at hx
    · cases hx
    · cases hx
      refine ⟨Or.inl rfl, ?_, j1⟩
      dsimp only
      split
      · exact Or.inr (Or.inl rfl)
      · exact Or.inr (Or.inr rfl)
  · unfold NumTok.text outTok fracOut expOut
    dsimp only
    congr 2
    congr 1
    · split <;> rfl
    · split
      · rfl
      · next he =>
        unfold expText Ser.writeSigned
        dsimp only
        congr 1
        rcases lt_or_gt_of_ne he with h | h
        · rw [if_neg (by omega), if_neg (by omega), if_pos h]; rfl
        · rw [if_pos h, if_pos h, if_neg (by omega)]
  · unfold mag outTok
    dsimp only
    rw [i2]
    congr 1
    · congr 1
      split
      · next h0 => subst h0; simp [decVal]
      · next h0 => exact (hf h0).2
    · congr 1
      split
      · next he => rw [he]; rfl
      · next he =>
        unfold expVal
        dsimp only
        rw [j2]
        rcases lt_or_gt_of_ne he with h | h
        · rw [if_neg (by omega : ¬ 0 < e), if_pos rfl]; omega
        · rw [if_pos h, if_neg (by decide)]; omega

/-- The decimals: nearest integer, up to the rounding errors of two operations. -/
theorem decimals_spec (p : Nat) (hp : p ≤ 9) (f : ℚ) (h0 : 0 ≤ f) (h1 : f < 1) : ∃ M : Nat, decimals p f = .fin (M : ℚ) ∧ M ≤ 10 ^ p ∧
    |(M : ℚ) - f * 10 ^ p| ≤ 1 / 2 + 1 / 2 ^ 22 := by
  have hP : (10 ^ p : Nat) ≤ 10 ^ 9 := Nat.pow_le_pow_right (by norm_num) hp
  have hP1 : 1 ≤ (10 ^ p : Nat) := Nat.one_le_pow _ _ (by norm_num)
  generalize hPd : (10 ^ p : Nat) = P at hP hP1
  have hPq : (10 : ℚ) ^ p = P := by rw [← hPd]; push_cast; rfl
  have hPq1 : (1 : ℚ) ≤ P := by exact_mod_cast hP1
  have hPq9 : (P : ℚ) ≤ 10 ^ 9 := by exact_mod_cast hP
  have e1 : rnd ((P : ℚ)) = .fin P := by
    have := rnd_int (P : Int) (by rw [abs_of_nonneg (by omega)]; norm_num; omega)
    exact_mod_cast this
  have e2 : rnd ((P : ℚ) + 1 / 2) = .fin ((P : ℚ) + 1 / 2) := by
    have := rnd_half (2 * P + 1 : Int) (by rw [abs_of_nonneg (by omega)]; norm_num; omega)
    have e : (((2 * P + 1 : Int)) : ℚ) / 2 = (P : ℚ) + 1 / 2 := by push_cast; ring
    rwa [e] at this
  have m0 : 0 ≤ f * P := by positivity
  have m1 : f * P ≤ P := by nlinarith
  obtain ⟨y, hy, y0, y1⟩ := rnd_mono m0 m1 e1
  obtain ⟨z, hz, z0, z1⟩ := rnd_mono (by linarith : 0 ≤ y + 1 / 2) (by linarith : y + 1 / 2 ≤ (P : ℚ) + 1 / 2) e2
  have ey := rnd_rel hy
  have ez := rnd_rel hz
  rw [abs_of_nonneg m0] at ey
  rw [abs_of_nonneg (by linarith : 0 ≤ y + 1 / 2)] at ez
  have hd : decimals p f = .fin ((⌊z⌋ : Int) : ℚ) := by
    unfold decimals
    rw [hPd, mul, hy, add, hz, floor]
    rfl
  have hz0 : 0 ≤ ⌊z⌋ := Int.floor_nonneg.2 z0
  obtain ⟨M, hM⟩ := Int.eq_ofNat_of_zero_le hz0
  have fl1 := Int.floor_le z
  have fl2 := Int.lt_floor_add_one z
  rw [hM] at hd fl1 fl2
  simp only [Int.cast_natCast] at hd fl1 fl2
  refine ⟨M, hd, ?_, ?_⟩
  · have : (M : ℚ) < P + 1 := by linarith
    have : M < P + 1 := by exact_mod_cast this
    omega
  · rw [hPq]
    have t1 : f * (P : ℚ) * (1 / 2 ^ 53) ≤ 10 ^ 9 * (1 / 2 ^ 53) := mul_le_mul_of_nonneg_right (by linarith) (by positivity)
    have t2 : (y + 1 / 2) * (1 / 2 ^ 53) ≤ (10 ^ 9 + 1 / 2) * (1 / 2 ^ 53) := mul_le_mul_of_nonneg_right (by linarith) (by positivity)
    have t3 : (1 : ℚ) / 2 ^ 1075 ≤ 1 / 2 ^ 60 := one_div_le_one_div_of_le (by positivity) (pow_le_pow_right₀ (by norm_num) (by norm_num))
    have t4 : (10 : ℚ) ^ 9 * (1 / 2 ^ 53) + (10 ^ 9 + 1 / 2) * (1 / 2 ^ 53) + 2 * (1 / 2 ^ 60) ≤ 1 / 2 ^ 22 := by norm_num
    generalize (1 : ℚ) / 2 ^ 1075 = tiny at *
    rw [abs_le] at ey ez ⊢
    constructor <;> linarith [ey.1, ey.2, ez.1, ez.2]

theorem dblToUInt_int (n : Int) : dblToUInt (.fin (n : ℚ)) = if 0 ≤ n ∧ n < 2 ^ 64 then .ok n.toNat else .ub := by
  unfold dblToUInt
  simp

/-- What is written, in terms of the scaled number. -/
theorem writeDouble_fin (lib : Lib) (u : Bool) (prec : Nat) (q : ℚ) (hq : q ≠ 0) :
    (∃ (x : ℚ) (M : Nat), (scale lib |q|).2 = .fin x ∧ 0 ≤ x ∧ x < 2 ^ 64 ∧ M ≤ 10 ^ min prec 9 ∧
      |(M : ℚ) - (x - ⌊x⌋) * 10 ^ min prec 9| ≤ 1 / 2 + 1 / 2 ^ 22 ∧
      writeDouble lib u prec (.fin q) = .ok ((if q < 0 then [0x2D] else []) ++
        (Ser.writeUnsigned (carry (min prec 9) ⌊x⌋.toNat M (scale lib |q|).1).1 ++
          (fracOut (min prec 9) (carry (min prec 9) ⌊x⌋.toNat M (scale lib |q|).1).2.1 ++
            expOut (carry (min prec 9) ⌊x⌋.toNat M (scale lib |q|).1).2.2)))) ∨
    (writeDouble lib u prec (.fin q) = .ub ∧ ∀ x, (scale lib |q|).2 = .fin x → x < 0 ∨ 2 ^ 64 ≤ x) := by
  unfold writeDouble
  dsimp only
  rw [if_neg hq, absR_eq]
  cases hs : (scale lib |q|).2 with
  | fin x =>
    dsimp only
    rw [show x.floor = ⌊x⌋ from rfl, dblToUInt_int]
    by_cases hx : 0 ≤ ⌊x⌋ ∧ ⌊x⌋ < 2 ^ 64
    · left
      rw [if_pos hx, Res.bind_ok]
      have f0 : 0 ≤ x - ⌊x⌋ := by linarith [Int.floor_le x]
      have f1 : x - ⌊x⌋ < 1 := by linarith [Int.lt_floor_add_one x]
      obtain ⟨M, h1, h2, h3⟩ := decimals_spec (min prec 9) (min_le_right _ _) _ f0 f1
      refine ⟨x, M, rfl, Int.floor_nonneg.1 hx.1, ?_, h2, h3, ?_⟩
      · have : ⌊x⌋ < ((2 ^ 64 : Int)) := hx.2
        have := Int.floor_lt.1 this
        exact_mod_cast this
      · have hM : dblToUInt (.fin (M : ℚ)) = .ok M := by
          have := dblToUInt_int (M : Int)
          rw [Int.cast_natCast] at this
          rw [this, if_pos, Int.toNat_natCast]
          have h9 : (10 : Nat) ^ min prec 9 ≤ 10 ^ 9 := Nat.pow_le_pow_right (by norm_num) (min_le_right _ _)
          constructor <;> omega
        rw [h1, hM, Res.bind_ok]
        rfl
    · right
      rw [if_neg hx]
      refine ⟨rfl, ?_⟩
      intro x' h
      cases h
      by_contra hc
      rw [not_or, not_lt, not_le] at hc
      apply hx
      refine ⟨Int.floor_nonneg.2 hc.1, Int.floor_lt.2 ?_⟩
      have := hc.2
      exact_mod_cast this
  | inf b => exact Or.inr ⟨rfl, by intro x h; cases h⟩
  | nan => exact Or.inr ⟨rfl, by intro x h; cases h⟩

theorem carry_lt (p intp m : Nat) (e : Int) (h : m ≤ 10 ^ p) : (carry p intp m e).2.1 < 10 ^ p := by
  have : 0 < (10 : Nat) ^ p := by positivity
  unfold carry
  split
  · split <;> (dsimp only; omega)
  · dsimp only; omega

end Imt.Fp
