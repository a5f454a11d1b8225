import Verif.Model.ReadDouble
import Verif.Lemmas.Near
import Verif.Lemmas.ParserSound
/-!
# The floating point computation of the reader
-/
set_option exponentiation.threshold 3000
namespace Imt.Fp
open Imt Imt.Spec
open Imt.Parser (isDigit isE parseUnsigned readSign accVal accVal_cons accVal_append decVal_eq StopDig StopNum isDigit_iff)
open Imt.Conv (Dbl)

/-- `pow(10, n)`: exact as far as powers of ten are doubles, within two roundings up to 10^308, infinite beyond. -/
structure Pow10Ok (lib : Lib) : Prop where
  exact : ∀ n, n ≤ 22 → lib.pow10 n = .fin (10 ^ n)
  near : ∀ n, n ≤ 308 → ∃ k : Int, lib.pow10 n = .fin (k : ℚ) ∧ Near 2 (k : ℚ) (10 ^ n)
  inf : ∀ n, 309 ≤ n → lib.pow10 n = .inf false

/-- Fraction added to the integer part. -/
def fracF (lib : Lib) (d : Dbl) : Option Bytes → Dbl
  | none => d
  | some f => add d (div (fracLoop (.fin 0) 0 f).1 (lib.pow10 f.length))

/-- Exponent applied. -/
def expF (lib : Lib) (d : Dbl) : Option (Nat × Bytes × Bytes) → Dbl
  | none => d
  | some e => mul d (if e.2.1 = [0x2D] then lib.pow01 (decVal e.2.2 : Int) else lib.pow10 (decVal e.2.2))

theorem fracLoop_append (ds rest : Bytes) (hd : ∀ c ∈ ds, IsDig c) (hr : StopDig rest) : ∀ d n,
    fracLoop d n (ds ++ rest) = ((fracLoop d n ds).1, n + ds.length, rest) ∧ (fracLoop d n ds).2 = (n + ds.length, []) := by
  induction ds with
  | nil =>
    intro d n
    refine ⟨?_, rfl⟩
    cases rest with
    | nil => rfl
    | cons c r =>
      have h0 : ∀ n, fracLoop d n [] = (d, n, []) := fun _ => rfl
      have hc : ¬ isDigit c = true := by rw [hr c r rfl]; decide
      rw [List.nil_append, h0, fracLoop, if_neg hc]
      rfl
  | cons c ds ih =>
    intro d n
    have hc := (isDigit_iff c).2 (hd c (by simp))
    obtain ⟨i1, i2⟩ := ih (fun x hx => hd x (by simp [hx])) (floor (add (mul d (.fin 10)) (.fin ((c - 48 : Nat) : Rat)))) (n + 1)
    rw [List.cons_append, fracLoop, if_pos hc, fracLoop, if_pos hc, i1, i2, List.length_cons]
    have : n + 1 + ds.length = n + (ds.length + 1) := by omega
    rw [this]
    exact ⟨rfl, rfl⟩

theorem readFrac_text (lib : Lib) (d : Dbl) (f : Option Bytes) (rest : Bytes) (hf : ∀ x ∈ f, Digits1 x) (hr : StopDig rest)
    (hdot : ∀ c r, rest = c :: r → c ≠ 0x2E) : readFrac lib d (fracText f ++ rest) = .ok (fracF lib d f, rest) := by
  cases f with
  | none =>
    simp only [fracText, List.nil_append]
    cases rest with
    | nil => rfl
    | cons c r =>
      rw [readFrac.eq_def]
      dsimp only
      rw [if_neg (hdot c r rfl)]
      rfl
  | some f =>
    have hd := hf f rfl
    have h := (fracLoop_append f rest hd.2 hr (.fin 0) 0).1
    obtain ⟨x, xs, rfl⟩ : ∃ d ds, f = d :: ds := List.exists_cons_of_ne_nil hd.1
    simp only [fracText, List.cons_append, readFrac, if_true]
    rw [if_pos ((isDigit_iff x).2 (hd.2 x (by simp)))]
    rw [List.cons_append] at h
    unfold decimalPart fracF
    dsimp only
    rw [h]
    simp

theorem readExp_text (lib : Lib) (d : Dbl) (e : Option (Nat × Bytes × Bytes)) (rest : Bytes)
    (hw : ∀ x ∈ e, (x.1 = 0x65 ∨ x.1 = 0x45) ∧ (x.2.1 = [] ∨ x.2.1 = [0x2B] ∨ x.2.1 = [0x2D]) ∧ Digits1 x.2.2)
    (hf : ExpFits e) (hr : StopNum rest) : readExp lib d (expText e ++ rest) = .ok (expF lib d e, rest) := by
  cases e with
  | none =>
    simp only [expText, List.nil_append]
    cases rest with
    | nil => rfl
    | cons c r =>
      have := hr c r rfl
      have hE : ¬ isE c = true := by rw [Parser.isE_iff]; omega
      rw [readExp, if_neg hE]
      rfl
  | some e =>
    obtain ⟨ch, sg, ds⟩ := e
    obtain ⟨hE, hs, hd⟩ := hw _ rfl
    have hv := hf _ rfl
    dsimp only at hE hs hd hv
    have hne := hd.1
    have hu := Parser.parseUnsigned_small ds rest hd.2 hr.dig 0 hv
    simp only [expText, List.cons_append, List.append_assoc, readExp]
    rw [if_pos ((Parser.isE_iff ch).2 hE)]
    have hsg : readSign (sg ++ (ds ++ rest)) = (decide (sg = [0x2D]), ds ++ rest) := by
      rcases hs with rfl | rfl | rfl
      · simpa using Parser.readSign_digits ds rest hd
      · simp [readSign]
      · simp [readSign]
    rw [hsg]
    obtain ⟨x, ds', rfl⟩ : ∃ d ds', ds = d :: ds' := List.exists_cons_of_ne_nil hne
    dsimp only [List.cons_append]
    rw [if_pos ((isDigit_iff x).2 (hd.2 x (by simp)))]
    rw [List.cons_append] at hu
    rw [hu]
    unfold expF
    dsimp only
    rw [if_pos rfl, decVal_eq]
    simp

theorem accVal_eq (a : Nat) (ds : Bytes) : accVal a ds = a * 10 ^ ds.length + decVal ds := by
  induction ds generalizing a with
  | nil => simp [accVal, decVal]
  | cons c ds ih =>
    rw [decVal_eq, accVal_cons, accVal_cons, ih, ih (0 * 10 + (c - 48)), List.length_cons, pow_succ]
    ring

theorem decVal_lt (ds : Bytes) (h : ∀ c ∈ ds, IsDig c) : decVal ds < 10 ^ ds.length := by
  induction ds with
  | nil => simp [decVal]
  | cons c ds ih =>
    have hc := h c (by simp)
    unfold IsDig at hc
    have := ih (fun x hx => h x (by simp [hx]))
    rw [decVal_eq, accVal_cons, accVal_eq, List.length_cons, pow_succ, Nat.zero_mul, Nat.zero_add]
    have : (c - 48) * 10 ^ ds.length ≤ 9 * 10 ^ ds.length := Nat.mul_le_mul_right _ (by omega)
    omega

/-- An integer is zero or normal. -/
theorem int_normal {m : Int} (h : 0 ≤ m) : (m : ℚ) = 0 ∨ (1 : ℚ) / 2 ^ 1022 ≤ m := by
  rcases eq_or_lt_of_le h with rfl | h
  · left; simp
  · right
    have : (1 : ℚ) ≤ m := by exact_mod_cast h
    exact le_trans (by norm_num) this

/-- One chunk. -/
theorem chunk_spec {lib : Lib} (hp : Pow10Ok lib) {n : Nat} {M : Int} {Y : Nat} (hM : Near n M Y) (hY : 0 < Y) (cnt part : Nat)
    (hpart : part < 2 ^ 64) :
    (chunk lib (.fin M) cnt part = .inf false ∧ 2 ^ 1023 ≤ ((Y * 10 ^ cnt + part : Nat) : ℚ) * (1 + uu) ^ (n + 4)) ∨
    ∃ M' : Int, chunk lib (.fin M) cnt part = .fin M' ∧ Near (n + 4) M' ((Y * 10 ^ cnt + part : Nat) : ℚ) ∧ (M' : ℚ) ≤ maxDbl := by
  have hYq : (0 : ℚ) < Y := by exact_mod_cast hY
  have hMp : (0 : ℚ) < M := hM.pos hYq
  have hMi : 0 < M := by exact_mod_cast hMp
  obtain ⟨B, hB⟩ : ∃ B : ℚ, ofNat part = .fin B ∧ 0 ≤ B := by
    have : (part : ℚ) ≤ maxDbl := le_trans (by exact_mod_cast (le_of_lt hpart) : (part : ℚ) ≤ 2 ^ 64) (by unfold maxDbl; norm_num)
    obtain ⟨r, h1, h2, -⟩ := rnd_finite (by positivity) this
    exact ⟨r, h1, h2⟩
  unfold chunk
  rcases Nat.lt_or_ge 308 cnt with hc | hc
  · left
    rw [hp.inf cnt hc, mul, if_neg hMp.ne', hB.1, decide_eq_false (not_lt.2 (le_of_lt hMp))]
    refine ⟨rfl, ?_⟩
    have h1 : (1 : ℚ) ≤ (1 + uu) ^ (n + 4) := one_le_pow₀ one_add_ge
    have h2 : (2 : ℚ) ^ 1023 ≤ ((Y * 10 ^ cnt + part : Nat) : ℚ) := by
      have h3 : 10 ^ 309 ≤ Y * 10 ^ cnt + part := by
        have h4 : 10 ^ 309 ≤ 10 ^ cnt := Nat.pow_le_pow_right (by norm_num) hc
        have h5 : 1 * 10 ^ cnt ≤ Y * 10 ^ cnt := Nat.mul_le_mul_right _ hY
        omega
      have h6 : ((10 ^ 309 : Nat) : ℚ) ≤ ((Y * 10 ^ cnt + part : Nat) : ℚ) := by exact_mod_cast h3
      refine le_trans ?_ h6
      norm_num
    calc (2 : ℚ) ^ 1023 = 2 ^ 1023 * 1 := (mul_one _).symm
      _ ≤ _ := mul_le_mul h2 h1 (by norm_num) (by positivity)
  · obtain ⟨P, hP, hPn⟩ := hp.near cnt hc
    have hPp : (0 : ℚ) < P := hPn.pos (by positivity)
    have hPi : 0 < P := by exact_mod_cast hPp
    rw [hP, mul, hB.1]
    have hMP : (M : ℚ) * P = ((M * P : Int) : ℚ) := by push_cast; rfl
    have hMP0 : 0 ≤ M * P := Int.mul_nonneg (le_of_lt hMi) (le_of_lt hPi)
    rw [hMP]
    rcases rnd_nonneg (q := ((M * P : Int) : ℚ)) (by exact_mod_cast hMP0) with ⟨A, hA, hA0⟩ | hA
    · rw [hA]
      obtain ⟨A', rfl⟩ := rnd_isInt hA
      have hB1 : rnd (((part : Int)) : ℚ) = .fin B := by have := hB.1; unfold ofNat at this; exact_mod_cast this
      obtain ⟨B', rfl⟩ := rnd_isInt hB1
      have nA : Near (n + 2 + 1) (A' : ℚ) ((Y : ℚ) * 10 ^ cnt) := by
        have h1 := rnd_near hA (int_normal hMP0)
        have h2 := hM.mul hPn (le_of_lt hYq) (by positivity)
        rw [← hMP] at h1
        have := h1.trans h2
        rwa [Nat.add_comm] at this
      have nB : Near (n + 2 + 1) (B' : ℚ) (part : ℚ) := by
        have h1 := rnd_near hB1 (int_normal (by omega))
        rw [Int.cast_natCast] at h1
        exact h1.mono (by positivity) (by omega)
      have nAB := nA.add nB
      have hAB0 : 0 ≤ A' + B' := by
        have h1 : 0 ≤ A' := by exact_mod_cast hA0
        have h2 : 0 ≤ B' := by exact_mod_cast hB.2
        omega
      have hAB : (A' : ℚ) + B' = ((A' + B' : Int) : ℚ) := by push_cast; rfl
      rw [add, hAB]
      rcases rnd_nonneg (q := ((A' + B' : Int) : ℚ)) (by exact_mod_cast hAB0) with ⟨C, hC, -⟩ | hC
      · right
        rw [hC]
        obtain ⟨C', rfl⟩ := rnd_isInt hC
        refine ⟨C', ?_, ?_, rnd_fin_le (by exact_mod_cast hAB0) hC⟩
        · unfold floor
          dsimp only
          rw [show (C' : ℚ).floor = ⌊(C' : ℚ)⌋ from rfl, Int.floor_intCast]
        · have h1 := rnd_near hC (int_normal hAB0)
          rw [← hAB] at h1
          have := h1.trans nAB
          push_cast
          rw [show n + 4 = 1 + (n + 2 + 1) by omega]
          exact this
      · left
        rw [hC]
        refine ⟨rfl, ?_⟩
        have h1 := rnd_inf_ge (by exact_mod_cast hAB0) hC
        rw [← hAB] at h1
        have h2 := (nAB.mono (by positivity) (by omega : n + 2 + 1 ≤ n + 4)).hi
        push_cast
        exact le_trans (le_trans (by norm_num) h1) h2
    · left
      rw [hA]
      refine ⟨rfl, ?_⟩
      have h1 := rnd_inf_ge (by exact_mod_cast hMP0) hA
      rw [← hMP] at h1
      have h2 := ((hM.mul hPn (le_of_lt hYq) (by positivity)).mono (by positivity) (by omega : n + 2 ≤ n + 4)).hi
      refine le_trans (le_trans (by norm_num) h1) (le_trans h2 ?_)
      apply mul_le_mul_of_nonneg_right _ (by positivity)
      push_cast
      linarith [show (0 : ℚ) ≤ (part : ℚ) by positivity]

/-- The integer part: an error, or a finite integer close to the digits read. -/
theorem readLarge_spec {lib : Lib} (hp : Pow10Ok lib) (rest : Bytes) (hr : StopDig rest) : ∀ (k : Nat) (ds : Bytes), ds.length ≤ k →
    (∀ c ∈ ds, IsDig c) → ∀ (n : Nat) (M : Int) (Y : Nat), Near n M Y → 0 < Y → (M : ℚ) ≤ maxDbl →
    (readLarge lib (.fin M) (ds ++ rest) = .err ∧ 2 ^ 1023 ≤ (accVal Y ds : ℚ) * (1 + uu) ^ (n + 4 * ds.length)) ∨
    ∃ M' : Int, readLarge lib (.fin M) (ds ++ rest) = .ok (.fin M', rest) ∧ Near (n + 4 * ds.length) M' (accVal Y ds : ℚ) ∧ (M' : ℚ) ≤ maxDbl := by
  have stop : ∀ d, readLarge lib d rest = .ok (d, rest) := by
    intro d
    cases rest with
    | nil => rw [readLarge]
    | cons c r => rw [readLarge, if_neg (by rw [hr c r rfl]; decide)]
  intro k
  induction k with
  | zero =>
    intro ds hk hd n M Y hM hY hMx
    have : ds = [] := List.length_eq_zero_iff.1 (by omega)
    subst this
    exact Or.inr ⟨M, stop _, by simpa [accVal] using hM, hMx⟩
  | succ k ih =>
    intro ds hk hd n M Y hM hY hMx
    cases ds with
    | nil => exact Or.inr ⟨M, stop _, by simpa [accVal] using hM, hMx⟩
    | cons c cs =>
      have hc := (isDigit_iff c).2 (hd c (by simp))
      obtain ⟨x, i1, i2, i3, i4⟩ := Parser.parseUnsigned_dig (ds := cs ++ rest) hc
      rw [List.cons_append, readLarge, if_pos hc]
      dsimp only
      generalize parseUnsigned 0 (c :: (cs ++ rest)) = u at *
      have hlen := congrArg List.length i1
      rw [List.length_append] at hlen
      have hx1 : 1 ≤ x.length := by
        rcases x with _ | ⟨a, b⟩
        · exact absurd rfl i2.1
        · simp
      -- the chunk ends inside the digits
      obtain ⟨y, hy1, hy2⟩ : ∃ y, c :: cs = x ++ y ∧ u.2.2 = y ++ rest := by
        rw [← List.cons_append] at i1
        rcases List.append_eq_append_iff.1 i1 with ⟨a, ha1, ha2⟩ | ⟨a, ha1, ha2⟩
        · -- digits beyond: impossible unless empty
          cases a with
          | nil => exact ⟨[], by simpa using ha1.symm, by simpa using ha2.symm⟩
          | cons b a =>
            exfalso
            have h1 := hr b (a ++ u.2.2) (by rw [ha2]; rfl)
            have h2 := i2.2 b (by rw [ha1]; simp)
            rw [(isDigit_iff b).2 h2] at h1
            cases h1
        · exact ⟨a, ha1, ha2⟩
      have hcnt : (c :: (cs ++ rest)).length - u.2.2.length = x.length := by omega
      rw [hcnt, if_pos (by omega : u.2.2.length < (c :: (cs ++ rest)).length)]
      have hacc : accVal Y (c :: cs) = accVal (Y * 10 ^ x.length + u.2.1) y := by
        rw [hy1, ← accVal_append, accVal_eq Y x, i3]
      have hyl : y.length + x.length = cs.length + 1 := by
        have := congrArg List.length hy1
        rw [List.length_append, List.length_cons] at this
        omega
      rcases chunk_spec hp hM hY x.length u.2.1 i4 with ⟨h, hbig⟩ | ⟨M', h, hn, hx'⟩
      · left
        rw [h, isInf, if_pos rfl]
        refine ⟨rfl, le_trans hbig ?_⟩
        rw [hacc]
        refine mul_le_mul ?_ (pow_le_pow_right₀ one_add_ge (by rw [List.length_cons]; omega)) (by positivity) (by positivity)
        exact_mod_cast Parser.accVal_ge _ y
      · have hni : ¬ isInf (.fin (M' : ℚ)) = true := by unfold isInf; simp
        rw [h, if_neg hni, hy2]
        have hpos : 0 < Y * 10 ^ x.length + u.2.1 := by positivity
        rcases ih y (by rw [List.length_cons] at hk; omega) (fun z hz => hd z (by rw [hy1]; simp [hz])) (n + 4) M' _ hn hpos hx' with ⟨h2, hbig⟩ | ⟨M2, h2, hn2, hx2⟩
        · refine Or.inl ⟨h2, le_trans hbig ?_⟩
          rw [hacc]
          exact mul_le_mul_of_nonneg_left (pow_le_pow_right₀ one_add_ge (by rw [List.length_cons]; omega)) (by positivity)
        · refine Or.inr ⟨M2, h2, ?_, hx2⟩
          rw [hacc]
          exact hn2.mono (by positivity) (by rw [List.length_cons]; omega)

/-- The digits behind the dot, as long as they fit. -/
theorem fracLoop_spec (ds : Bytes) (hd : ∀ c ∈ ds, IsDig c) : ∀ (n p : Nat) (M : Int) (Y : Nat), Near n M Y →
    ((accVal Y ds : Nat) : ℚ) * (1 + uu) ^ (n + 2 * ds.length) ≤ maxDbl →
    ∃ M' : Int, (fracLoop (.fin M) p ds).1 = .fin M' ∧ Near (n + 2 * ds.length) M' (accVal Y ds : ℚ) := by
  induction ds with
  | nil => intro n p M Y hM _; exact ⟨M, rfl, by simpa [accVal] using hM⟩
  | cons c ds ih =>
    intro n p M Y hM hmax
    have hc := hd c (by simp)
    have hM0 : (0 : ℚ) ≤ M := hM.nonneg (by positivity)
    have hMi : 0 ≤ M := by exact_mod_cast hM0
    rw [fracLoop, if_pos ((isDigit_iff c).2 hc), mul]
    rw [accVal_cons] at hmax ⊢
    have hge : Y * 10 + (c - 48) ≤ accVal (Y * 10 + (c - 48)) ds := Parser.accVal_ge _ _
    have hgeq : ((Y * 10 + (c - 48) : Nat) : ℚ) ≤ accVal (Y * 10 + (c - 48)) ds := by exact_mod_cast hge
    have hone : ∀ m : Nat, m ≤ n + 2 * (ds.length + 1) → ((Y * 10 + (c - 48) : Nat) : ℚ) * (1 + uu) ^ m ≤ maxDbl := by
      intro m hm
      refine le_trans (mul_le_mul hgeq (pow_le_pow_right₀ one_add_ge hm) (by positivity) (by positivity)) ?_
      rw [List.length_cons] at hmax
      exact hmax
    have n10 : Near n ((M : ℚ) * 10) ((Y : ℚ) * 10) := by
      have := hM.mul (Near.refl 10) (by positivity) (by norm_num)
      simpa using this
    have hle1 : (M : ℚ) * 10 ≤ maxDbl := by
      refine le_trans n10.hi (le_trans ?_ (hone n (by omega)))
      apply mul_le_mul_of_nonneg_right _ (by positivity)
      push_cast
      linarith [show (0 : ℚ) ≤ ((c - 48 : Nat) : ℚ) by positivity]
    have e10 : (M : ℚ) * 10 = ((M * 10 : Int) : ℚ) := by push_cast; rfl
    obtain ⟨A, hA, hA0, -⟩ := rnd_finite (by positivity) hle1
    rw [hA, add]
    rw [e10] at hA
    obtain ⟨A', rfl⟩ := rnd_isInt hA
    have nA : Near (n + 1) (A' : ℚ) ((Y : ℚ) * 10) := by
      have h1 := rnd_near hA (int_normal (by omega))
      rw [← e10] at h1
      have := h1.trans n10
      rwa [Nat.add_comm] at this
    have nD : Near (n + 1) (((c - 48 : Nat) : ℚ)) (((c - 48 : Nat) : ℚ)) := (Near.refl _).mono (by positivity) (by omega)
    have nAD := nA.add nD
    have hAD : (A' : ℚ) + ((c - 48 : Nat) : ℚ) = ((A' + ((c - 48 : Nat) : Int) : Int) : ℚ) := by push_cast; rfl
    have hAD0 : 0 ≤ A' + ((c - 48 : Nat) : Int) := by
      have : 0 ≤ A' := by exact_mod_cast hA0
      omega
    have hcast : (Y : ℚ) * 10 + ((c - 48 : Nat) : ℚ) = ((Y * 10 + (c - 48) : Nat) : ℚ) := by push_cast; rfl
    rw [hcast] at nAD
    have hle2 : (A' : ℚ) + ((c - 48 : Nat) : ℚ) ≤ maxDbl := le_trans nAD.hi (hone (n + 1) (by omega))
    obtain ⟨C, hC, hC0, -⟩ := rnd_finite (by rw [hAD]; exact_mod_cast hAD0) hle2
    rw [hC]
    rw [hAD] at hC
    obtain ⟨C', rfl⟩ := rnd_isInt hC
    have nC : Near (n + 2) (C' : ℚ) ((Y * 10 + (c - 48) : Nat) : ℚ) := by
      have h1 := rnd_near hC (int_normal hAD0)
      rw [← hAD] at h1
      have := h1.trans nAD
      rw [show n + 2 = 1 + (n + 1) by omega]
      exact this
    have hfl : floor (.fin (C' : ℚ)) = .fin (C' : ℚ) := by
      unfold floor
      dsimp only
      rw [show (C' : ℚ).floor = ⌊(C' : ℚ)⌋ from rfl, Int.floor_intCast]
    rw [hfl]
    have hl : n + 2 + 2 * ds.length = n + 2 * (c :: ds).length := by rw [List.length_cons]; omega
    rw [← hl] at hmax ⊢
    exact ih (fun x hx => hd x (by simp [hx])) (n + 2) (p + 1) C' _ nC hmax

theorem parseUnsigned_false : ∀ (s : Bytes) (a : Nat), (parseUnsigned a s).1 = false → 0 < (parseUnsigned a s).2.1
  | [], a, h => by rw [parseUnsigned] at h; cases h
  | c :: cs, a, h => by
    rw [parseUnsigned] at h ⊢
    by_cases hd : isDigit c = true
    · rw [if_pos hd] at h ⊢
      by_cases h1 : a > (2 ^ 64 - 1) / 10
      · rw [if_pos h1]; dsimp only; omega
      · rw [if_neg h1] at h ⊢
        dsimp only at h ⊢
        by_cases h2 : (a * 10 + (c - 48)) % 2 ^ 64 < a
        · rw [if_pos h2]; dsimp only; omega
        · rw [if_neg h2] at h ⊢
          exact parseUnsigned_false cs _ h
    · rw [if_neg hd] at h; cases h

/-- Reading a token, as a floating point expression. -/
theorem readNumber_text (lib : Lib) (t : NumTok) (h : t.WF) (hx : ExpFits t.exp) (rest : Bytes) (hr : StopNum rest) :
    ∃ m ds, accVal m ds = decVal t.int ∧ m < 2 ^ 64 ∧ (∀ c ∈ ds, IsDig c) ∧ ds.length ≤ t.int.length ∧ (ds ≠ [] → 0 < m) ∧
      (decVal t.int < 2 ^ 64 → ds = []) ∧ StopDig (fracText t.frac ++ (expText t.exp ++ rest)) ∧
      readNumber lib (t.text ++ rest) = (do
        let l ← readLarge lib (ofNat m) (ds ++ (fracText t.frac ++ (expText t.exp ++ rest)))
        let f ← readFrac lib l.1 l.2
        let e ← readExp lib f.1 f.2
        pure (if t.neg then neg e.1 else e.1, e.2)) := by
  obtain ⟨sgn, int, frac, exp⟩ := t
  obtain ⟨⟨hd, hz⟩, hfr, hex⟩ := h
  dsimp only at hd hfr hex hx hz
  have he := Parser.expText_stop exp rest hr (fun x h => (hex x h).1)
  unfold readNumber
  have hsg : readSign (NumTok.text ⟨sgn, int, frac, exp⟩ ++ rest) =
      (sgn, int ++ (fracText frac ++ (expText exp ++ rest))) := by
    cases sgn
    · simp only [NumTok.text, List.append_assoc]
      exact Parser.readSign_digits int _ hd
    · simp [NumTok.text, readSign]
  rw [hsg]
  dsimp only
  obtain ⟨d, ds, rfl⟩ : ∃ d ds, int = d :: ds := List.exists_cons_of_ne_nil hd.1
  dsimp only [List.cons_append]
  rw [if_pos (Or.inl ((isDigit_iff d).2 (hd.2 d (by simp))))]
  have hfs : StopDig (fracText frac ++ (expText exp ++ rest)) := by
    cases frac with
    | none => simpa [fracText] using he.1
    | some f =>
      intro c r h
      simp only [fracText, List.cons_append, List.cons.injEq] at h
      rw [← h.1]; decide
  by_cases hv : accVal 0 (d :: ds) < 2 ^ 64
  · have hu := Parser.parseUnsigned_small (d :: ds) _ hd.2 hfs 0 hv
    rw [List.cons_append] at hu
    rw [hu]
    dsimp only
    refine ⟨accVal 0 (d :: ds), [], (decVal_eq _).symm, hv, by simp, by simp, by simp, fun _ => rfl, hfs, ?_⟩
    rw [List.nil_append]
    have hstop : readLarge lib (ofNat (accVal 0 (d :: ds))) (fracText frac ++ (expText exp ++ rest)) =
        .ok (ofNat (accVal 0 (d :: ds)), fracText frac ++ (expText exp ++ rest)) := by
      generalize fracText frac ++ (expText exp ++ rest) = s at hfs
      cases s with
      | nil => rw [readLarge]
      | cons c r => rw [readLarge, if_neg (by rw [hfs c r rfl]; decide)]
    split
    · unfold readDouble
      rfl
    · next hc =>
      rw [hstop, Res.bind_ok]
      dsimp only
      -- no fraction and no exponent
      have hfn : frac = none := by
        cases frac with
        | none => rfl
        | some f => exact absurd (Or.inr (Or.inl (by simp [fracText]))) hc
      subst hfn
      have hen : exp = none := by
        cases exp with
        | none => rfl
        | some e =>
          refine absurd (Or.inr (Or.inr ?_)) hc
          have := (hex e rfl).1
          simp only [fracText, expText, List.nil_append, List.cons_append, List.head?_cons, Option.map_some, Option.getD_some]
          rw [Parser.isE_iff]; exact this
      subst hen
      rw [readFrac_text lib _ none _ (by simp) he.1 he.2, Res.bind_ok]
      dsimp only
      rw [readExp_text lib _ none rest (by simp) (by simp [ExpFits]) hr, Res.bind_ok]
      rfl
  · obtain ⟨m, ds2, h1, h2, h3, h4⟩ := Parser.parseUnsigned_large (d :: ds) (fracText frac ++ (expText exp ++ rest)) hd.2 0 (by decide) (by omega)
    obtain ⟨x, j1, j2, j3, j4⟩ := Parser.parseUnsigned_inv ((d :: ds) ++ (fracText frac ++ (expText exp ++ rest))) 0 (by decide)
    rw [h1] at j1 j3 j4
    dsimp only at j1 j3 j4
    have j5 : d :: ds = x ++ ds2 := List.append_cancel_right (by rw [List.append_assoc]; exact j1)
    rw [List.cons_append] at h1
    rw [h1]
    dsimp only
    rw [if_pos (Or.inl rfl)]
    refine ⟨m, ds2, by rw [h4, decVal_eq], j4, h3, ?_, ?_, fun hlt => absurd (by rw [← decVal_eq]; exact hlt) hv, hfs, by unfold readDouble; rfl⟩
    · rw [j5, List.length_append]; omega
    · intro _
      -- a number that does not fit has a first part that is not zero
      have := parseUnsigned_false (d :: (ds ++ (fracText frac ++ (expText exp ++ rest)))) 0 (by rw [h1])
      rw [h1] at this
      exact this

theorem rnd_normal {q r : ℚ} (h : 1 / 2 ^ 1022 ≤ q) (hr : rnd q = .fin r) : 1 / 2 ^ 1022 ≤ r := by
  have e3 : rnd (1 / 2 ^ 1022 : ℚ) = .fin (1 / 2 ^ 1022) := by
    have := rnd_exact 1 (-1022) (by norm_num) (by norm_num) (by norm_num)
    have e : ((1 : Int) : ℚ) * 2 ^ (-1022 : Int) = 1 / 2 ^ 1022 := by rw [Int.cast_one, one_mul, zpow_neg, one_div]; norm_cast
    rwa [e] at this
  obtain ⟨r', h1, -, h2⟩ := rnd_mono (by positivity) h hr
  rw [e3] at h1
  cases h1
  exact h2

/-- Integer part and fraction of a token, without exponent. -/
def mant (t : NumTok) : ℚ := (decVal t.int : ℚ) + (decVal (t.frac.getD []) : ℚ) / 10 ^ (t.frac.getD []).length

theorem mant_nonneg (t : NumTok) : 0 ≤ mant t := by unfold mant; positivity

theorem ofNat_spec {m : Nat} (h : m < 2 ^ 64) : ∃ M : Int, ofNat m = .fin M ∧ Near 1 (M : ℚ) (m : ℚ) ∧ (M : ℚ) ≤ maxDbl := by
  have h1 : (m : ℚ) ≤ maxDbl := le_trans (by exact_mod_cast (le_of_lt h) : (m : ℚ) ≤ 2 ^ 64) (by unfold maxDbl; norm_num)
  obtain ⟨r, h2, -, h3⟩ := rnd_finite (by positivity) h1
  have h4 : rnd (((m : Int)) : ℚ) = .fin r := by exact_mod_cast h2
  obtain ⟨M, rfl⟩ := rnd_isInt h4
  refine ⟨M, h2, ?_, h3⟩
  have := rnd_near h4 (int_normal (by omega))
  exact_mod_cast this

/-- Reading a token whose integer part fits 64 bits. -/
theorem readNumber_small (lib : Lib) (t : NumTok) (h : t.WF) (hx : ExpFits t.exp) (hi : decVal t.int < 2 ^ 64) (rest : Bytes)
    (hr : StopNum rest) : readNumber lib (t.text ++ rest) = .ok
      (if t.neg then neg (expF lib (fracF lib (ofNat (decVal t.int)) t.frac) t.exp)
        else expF lib (fracF lib (ofNat (decVal t.int)) t.frac) t.exp, rest) := by
  obtain ⟨m, ds, a1, -, -, -, -, a5, a6, a7⟩ := readNumber_text lib t h hx rest hr
  have he := Parser.expText_stop t.exp rest hr (fun x hh => (h.exp x hh).1)
  have hds := a5 hi
  subst hds
  have hm : m = decVal t.int := by rw [← a1]; rfl
  have hstop : ∀ d, readLarge lib d (fracText t.frac ++ (expText t.exp ++ rest)) = .ok (d, fracText t.frac ++ (expText t.exp ++ rest)) := by
    intro d
    generalize fracText t.frac ++ (expText t.exp ++ rest) = s at a6
    cases s with
    | nil => rw [readLarge]
    | cons c r => rw [readLarge, if_neg (by rw [a6 c r rfl]; decide)]
  rw [a7, List.nil_append, hstop, Res.bind_ok]
  dsimp only
  rw [readFrac_text lib _ t.frac _ h.frac he.1 he.2, Res.bind_ok]
  dsimp only
  rw [readExp_text lib _ t.exp rest h.exp hx hr, Res.bind_ok, hm]
  rfl

/-- Digits behind the dot while they are exact. -/
theorem fracLoop_exact (ds : Bytes) (hd : ∀ c ∈ ds, IsDig c) : ∀ (p : Nat) (Y : Nat), accVal Y ds < 2 ^ 53 →
    (fracLoop (.fin (Y : ℚ)) p ds).1 = .fin ((accVal Y ds : Nat) : ℚ) := by
  induction ds with
  | nil => intro p Y _; rfl
  | cons c ds ih =>
    intro p Y hlt
    have hc := hd c (by simp)
    rw [accVal_cons] at hlt
    have hge : Y * 10 + (c - 48) ≤ accVal (Y * 10 + (c - 48)) ds := Parser.accVal_ge _ _
    have r1 : rnd ((Y : ℚ) * 10) = .fin ((Y : ℚ) * 10) := by
      have := rnd_int ((Y * 10 : Nat) : Int) (by rw [abs_of_nonneg (by omega)]; omega)
      push_cast at this
      exact this
    have r2 : rnd ((Y : ℚ) * 10 + ((c - 48 : Nat) : ℚ)) = .fin (((Y * 10 + (c - 48) : Nat)) : ℚ) := by
      have := rnd_int ((Y * 10 + (c - 48) : Nat) : Int) (by rw [abs_of_nonneg (by omega)]; omega)
      rw [Int.cast_natCast] at this
      have e : (Y : ℚ) * 10 + ((c - 48 : Nat) : ℚ) = ((Y * 10 + (c - 48) : Nat) : ℚ) := by push_cast; rfl
      rw [e]; exact this
    have hfl : floor (.fin ((Y * 10 + (c - 48) : Nat) : ℚ)) = .fin ((Y * 10 + (c - 48) : Nat) : ℚ) := by
      unfold floor
      dsimp only
      rw [show (((Y * 10 + (c - 48) : Nat) : ℚ)).floor = ⌊((Y * 10 + (c - 48) : Nat) : ℚ)⌋ from rfl, Int.floor_natCast]
      rfl
    rw [fracLoop, if_pos ((isDigit_iff c).2 hc), mul, r1, add, r2, hfl, accVal_cons]
    exact ih (fun x hx => hd x (by simp [hx])) (p + 1) _ hlt

/-- The fraction. -/
theorem frac_spec {lib : Lib} (hp : Pow10Ok lib) (f : Bytes) (hd : ∀ c ∈ f, IsDig c) (hl : f.length ≤ 307) :
    ∃ F : ℚ, div (fracLoop (.fin 0) 0 f).1 (lib.pow10 f.length) = .fin F ∧
      Near (2 * f.length + 5) F ((decVal f : ℚ) / 10 ^ f.length) ∧ (F = 0 ∨ 1 / 2 ^ 1022 ≤ F) ∧ F ≤ 2 := by
  have hlt := decVal_lt f hd
  have hltq : (decVal f : ℚ) ≤ 10 ^ f.length := by exact_mod_cast (le_of_lt hlt)
  have h307 : (10 : ℚ) ^ f.length ≤ 10 ^ 307 := pow_le_pow_right₀ (by norm_num) hl
  have hpw : ∀ m : Nat, m ≤ 630 → (1 + uu) ^ m ≤ 1 + 1 / 2 ^ 40 := by
    intro m hm
    refine le_trans (one_add_pow_le (by omega)) ?_
    have : (m : ℚ) ≤ 630 := by exact_mod_cast hm
    have h2 : (m : ℚ) * (2 * uu) ≤ 630 * (2 * uu) := mul_le_mul_of_nonneg_right this (by norm_num)
    have h3 : (630 : ℚ) * (2 * uu) ≤ 1 / 2 ^ 40 := by norm_num
    linarith
  obtain ⟨R, hR, nR⟩ := fracLoop_spec f hd 0 0 0 0 (by simpa using Near.refl 0) (by
    rw [← decVal_eq]
    calc (decVal f : ℚ) * (1 + uu) ^ (0 + 2 * f.length) ≤ 10 ^ 307 * (1 + 1 / 2 ^ 40) :=
          mul_le_mul (le_trans hltq h307) (hpw _ (by omega)) (by positivity) (by positivity)
      _ ≤ maxDbl := by unfold maxDbl; norm_num)
  obtain ⟨P, hP, nP⟩ := hp.near f.length (by omega)
  have hPp : (0 : ℚ) < P := nP.pos (by positivity)
  rw [← decVal_eq] at nR
  have hdiv := nR.div nP (by positivity) (by positivity)
  rw [Int.cast_zero] at hR
  rw [hR, hP, div, if_neg hPp.ne']
  have hR0 : (0 : ℚ) ≤ R := nR.nonneg (by positivity)
  have hle1 : (decVal f : ℚ) / 10 ^ f.length ≤ 1 := by
    rw [div_le_one (by positivity)]; exact hltq
  have hle : (R : ℚ) / P ≤ 1 + 1 / 2 ^ 40 := by
    refine le_trans hdiv.hi ?_
    calc (decVal f : ℚ) / 10 ^ f.length * (1 + uu) ^ (0 + 2 * f.length + 2 * 2) ≤ 1 * (1 + 1 / 2 ^ 40) :=
          mul_le_mul hle1 (hpw _ (by omega)) (by positivity) (by norm_num)
      _ = _ := one_mul _
  have e2 : rnd (2 : ℚ) = .fin 2 := by
    have := rnd_int 2 (by norm_num)
    exact_mod_cast this
  obtain ⟨F, hF, hF0, hF2⟩ := rnd_mono (div_nonneg hR0 (le_of_lt hPp)) (le_trans hle (by norm_num : (1 : ℚ) + 1 / 2 ^ 40 ≤ 2)) e2
  refine ⟨F, hF, ?_, ?_, hF2⟩
  all_goals
    have hnorm : (R : ℚ) / P = 0 ∨ 1 / 10 ^ 307 * (1 / 2) ≤ (R : ℚ) / P := by
      rcases eq_or_lt_of_le hR0 with h | h
      · left; rw [← h, zero_div]
      · right
        have hRi : 0 < R := by exact_mod_cast h
        have hR1 : (1 : ℚ) ≤ R := by exact_mod_cast hRi
        have hPle : (P : ℚ) ≤ 10 ^ 307 * 2 := by
          refine le_trans nP.hi (mul_le_mul h307 ?_ (by positivity) (by positivity))
          exact le_trans (hpw 2 (by omega)) (by norm_num)
        rw [le_div_iff₀ hPp]
        calc (1 : ℚ) / 10 ^ 307 * (1 / 2) * P ≤ 1 / 10 ^ 307 * (1 / 2) * (10 ^ 307 * 2) := mul_le_mul_of_nonneg_left hPle (by positivity)
          _ = 1 := by field_simp
          _ ≤ R := hR1
  · have h1 : Near 1 F (R / P) := rnd_near hF (hnorm.imp_right (le_trans (by norm_num)))
    have := h1.trans hdiv
    rw [show 2 * f.length + 5 = 1 + (0 + 2 * f.length + 2 * 2) by omega]
    exact this
  · rcases hnorm with h | h
    · left; rw [h, rnd_zero] at hF; cases hF; rfl
    · right
      exact rnd_normal (le_trans (by norm_num) h) hF

/-- Mantissa read, exponent still to be applied. -/
theorem readNumber_spec {lib : Lib} (hp : Pow10Ok lib) (t : NumTok) (h : t.WF) (hx : ExpFits t.exp) (hfl : (t.frac.getD []).length ≤ 307)
    (rest : Bytes) (hr : StopNum rest) :
    (readNumber lib (t.text ++ rest) = .err ∧ 2 ^ 1023 ≤ (decVal t.int : ℚ) * (1 + uu) ^ (1 + 4 * t.int.length)) ∨
    ∃ D : ℚ, Near (4 * t.int.length + 2 * (t.frac.getD []).length + 7) D (mant t) ∧ (D = 0 ∨ 1 / 2 ^ 1022 ≤ D) ∧
      readNumber lib (t.text ++ rest) = .ok (if t.neg then neg (expF lib (.fin D) t.exp) else expF lib (.fin D) t.exp, rest) := by
  obtain ⟨m, ds, a1, a2, a3, a4, a5, -, a6, a7⟩ := readNumber_text lib t h hx rest hr
  have he := Parser.expText_stop t.exp rest hr (fun x hh => (h.exp x hh).1)
  obtain ⟨M, b1, b2, b3⟩ := ofNat_spec a2
  rw [a7, b1]
  -- the integer part
  have hint : (readLarge lib (.fin M) (ds ++ (fracText t.frac ++ (expText t.exp ++ rest))) = .err ∧
      2 ^ 1023 ≤ (decVal t.int : ℚ) * (1 + uu) ^ (1 + 4 * t.int.length)) ∨
      ∃ M' : Int, readLarge lib (.fin M) (ds ++ (fracText t.frac ++ (expText t.exp ++ rest))) =
        .ok (.fin M', fracText t.frac ++ (expText t.exp ++ rest)) ∧ Near (1 + 4 * t.int.length) M' (decVal t.int : ℚ) ∧ (M' : ℚ) ≤ maxDbl := by
    by_cases hds : ds = []
    · subst hds
      right
      refine ⟨M, ?_, ?_, b3⟩
      · rw [List.nil_append]
        generalize fracText t.frac ++ (expText t.exp ++ rest) = s at a6
        cases s with
        | nil => rw [readLarge]
        | cons c r => rw [readLarge, if_neg (by rw [a6 c r rfl]; decide)]
      · rw [← a1]
        exact b2.mono (by positivity) (by omega)
    · rcases readLarge_spec hp _ a6 ds.length ds (le_refl _) a3 1 M m b2 (a5 hds) b3 with ⟨c1, c2⟩ | ⟨M', c1, c2, c3⟩
      · left
        refine ⟨c1, le_trans c2 ?_⟩
        rw [a1]
        exact mul_le_mul_of_nonneg_left (pow_le_pow_right₀ one_add_ge (by omega)) (by positivity)
      · right
        rw [a1] at c2
        exact ⟨M', c1, c2.mono (by positivity) (by omega), c3⟩
  rcases hint with ⟨c1, c2⟩ | ⟨M', c1, c2, c3⟩
  · left; rw [c1]; exact ⟨rfl, c2⟩
  · right
    rw [c1, Res.bind_ok]
    dsimp only
    rw [readFrac_text lib _ t.frac _ h.frac he.1 he.2, Res.bind_ok]
    dsimp only
    rw [readExp_text lib _ t.exp rest h.exp hx hr, Res.bind_ok]
    have hM0 : (0 : ℚ) ≤ M' := c2.nonneg (by positivity)
    have hM0i : 0 ≤ M' := by exact_mod_cast hM0
    suffices hD : ∃ D : ℚ, fracF lib (.fin M') t.frac = .fin D ∧ Near (4 * t.int.length + 2 * (t.frac.getD []).length + 7) D (mant t) ∧
        (D = 0 ∨ 1 / 2 ^ 1022 ≤ D) by
      obtain ⟨D, d1, d2, d3⟩ := hD
      exact ⟨D, d2, d3, by rw [d1]; rfl⟩
    unfold mant
    cases hf : t.frac with
    | none =>
      refine ⟨M', rfl, ?_, int_normal hM0i⟩
      have := c2.mono (m := 4 * t.int.length + 2 * (Option.getD (none : Option Bytes) []).length + 7) (by positivity) (by omega)
      simpa [decVal] using this
    | some f =>
      rw [hf] at hfl
      dsimp only [Option.getD_some] at hfl ⊢
      obtain ⟨F, f1, f2, f3, f4⟩ := frac_spec hp f (h.frac f (by rw [hf]; rfl)).2 hfl
      unfold fracF
      dsimp only
      rw [f1, add]
      have hF0 : 0 ≤ F := f2.nonneg (by positivity)
      have hsum : Near (4 * t.int.length + 2 * f.length + 6) ((M' : ℚ) + F) ((decVal t.int : ℚ) + (decVal f : ℚ) / 10 ^ f.length) :=
        (c2.mono (by positivity) (by omega)).add (f2.mono (by positivity) (by omega))
      have hnorm : (M' : ℚ) + F = 0 ∨ 1 / 2 ^ 1022 ≤ (M' : ℚ) + F := by
        rcases int_normal hM0i with hz | hz
        · rw [hz, zero_add]; exact f3
        · right; exact le_trans hz (le_add_of_nonneg_right hF0)
      obtain ⟨D, g1, g2, -⟩ := rnd_finite' (by linarith : 0 ≤ (M' : ℚ) + F) (by
        have : maxDbl + 2 < 2 ^ 1024 - 2 ^ 970 := by unfold maxDbl; norm_num
        linarith)
      refine ⟨D, g1, ?_, ?_⟩
      · have := (rnd_near g1 hnorm).trans hsum
        rw [show 4 * t.int.length + 2 * f.length + 7 = 1 + (4 * t.int.length + 2 * f.length + 6) by omega]
        exact this
      · rcases hnorm with hz | hz
        · left; rw [hz, rnd_zero] at g1; cases g1; rfl
        · right
          exact rnd_normal hz g1

end Imt.Fp
