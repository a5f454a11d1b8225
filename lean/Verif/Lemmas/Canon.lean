import Verif.Lemmas.ReadDouble
import Verif.Lemmas.WriteDouble
/-!
# Uniqueness of decimal notation
-/
namespace Imt.Fp
open Imt Imt.Spec

theorem digits_unique : ∀ {a b : Bytes}, (∀ c ∈ a, IsDig c) → (∀ c ∈ b, IsDig c) → a.length = b.length → decVal a = decVal b → a = b := by
  intro a
  induction a using List.reverseRecOn with
  | nil => intro b _ _ hl _; exact (List.length_eq_zero_iff.1 hl.symm).symm
  | append_singleton a c ih =>
    intro b ha hb hl hv
    rcases List.eq_nil_or_concat b with rfl | ⟨b, d, rfl⟩
    · simp at hl
    · rw [List.concat_eq_append] at *
      rw [decVal_snoc, decVal_snoc] at hv
      have hc := ha c (by simp)
      have hd := hb d (by simp)
      unfold IsDig at hc hd
      have e1 : c = d := by omega
      have e2 : a = b := ih (fun x hx => ha x (by simp [hx])) (fun x hx => hb x (by simp [hx])) (by simpa using hl) (by omega)
      rw [e1, e2]

theorem decVal_cons (c : Nat) (l : Bytes) : decVal (c :: l) = (c - 48) * 10 ^ l.length + decVal l := by
  induction l using List.reverseRecOn with
  | nil => simp [decVal]
  | append_singleton l d ih =>
    rw [← List.cons_append, decVal_snoc, decVal_snoc, ih, List.length_append, List.length_singleton, pow_succ]
    ring

theorem decVal_ge (a : Bytes) (h : Digits1 a) (h0 : a.head? ≠ some 48) : 10 ^ (a.length - 1) ≤ decVal a := by
  cases a with
  | nil => exact absurd rfl h.1
  | cons c l =>
    have hc := h.2 c (by simp)
    unfold IsDig at hc
    have : c ≠ 48 := by intro e; exact h0 (by simp [e])
    rw [decVal_cons, List.length_cons, Nat.add_sub_cancel]
    have : 1 ≤ c - 48 := by omega
    nlinarith [Nat.zero_le (decVal l), Nat.mul_le_mul_right (10 ^ l.length) this]

/-- Digits without a superfluous leading zero are determined by the number. -/
theorem int_unique {a b : Bytes} (ha : Digits1 a) (hb : Digits1 b) (za : a.head? = some 48 → a = [48]) (zb : b.head? = some 48 → b = [48])
    (h : decVal a = decVal b) : a = b := by
  have zero : ∀ {x : Bytes}, Digits1 x → x.head? ≠ some 48 → decVal x ≠ 0 := by
    intro x hx h0 hz
    have := decVal_ge x hx h0
    have h2 : 0 < 10 ^ (x.length - 1) := by positivity
    omega
  have z48 : decVal [48] = 0 := rfl
  by_cases h1 : a.head? = some 48
  · by_cases h2 : b.head? = some 48
    · rw [za h1, zb h2]
    · rw [za h1, z48] at h; exact absurd h.symm (zero hb h2)
  · by_cases h2 : b.head? = some 48
    · rw [zb h2, z48] at h; exact absurd h (zero ha h1)
    · refine digits_unique ha.2 hb.2 ?_ h
      have a1 := decVal_ge a ha h1
      have a2 := decVal_lt a ha.2
      have b1 := decVal_ge b hb h2
      have b2 := decVal_lt b hb.2
      have c1 : 10 ^ (a.length - 1) < 10 ^ b.length := by omega
      have c2 : 10 ^ (b.length - 1) < 10 ^ a.length := by omega
      have d1 := (Nat.pow_lt_pow_iff_right (by norm_num)).1 c1
      have d2 := (Nat.pow_lt_pow_iff_right (by norm_num)).1 c2
      have e1 := List.length_pos_iff.2 ha.1
      have e2 := List.length_pos_iff.2 hb.1
      omega

theorem last_mod (a : Bytes) (h : Digits1 a) (hl : a.getLast? ≠ some 48) : decVal a % 10 ≠ 0 := by
  rcases List.eq_nil_or_concat a with rfl | ⟨b, d, rfl⟩
  · exact absurd rfl h.1
  · rw [List.concat_eq_append] at *
    have hd := h.2 d (by simp)
    unfold IsDig at hd
    rw [decVal_snoc]
    have : d ≠ 48 := by intro e; exact hl (by simp [e])
    omega

theorem frac_le {a b : Bytes} (hb : Digits1 b) (lb : b.getLast? ≠ some 48)
    (h : decVal a * 10 ^ b.length = decVal b * 10 ^ a.length) : b.length ≤ a.length := by
  by_contra hc
  obtain ⟨k, hk⟩ : ∃ k, b.length = a.length + (k + 1) := ⟨b.length - a.length - 1, by omega⟩
  rw [hk, pow_add, ← mul_assoc, mul_right_comm] at h
  have := Nat.eq_of_mul_eq_mul_right (by positivity) h
  apply last_mod b hb lb
  rw [← this, pow_succ, ← mul_assoc]
  omega

/-- Tokens without exponent and without superfluous zeros are determined by sign and number. -/
theorem canon_unique {p q : Nat} {s t : NumTok} (hs : s.WF) (ht : t.WF) (es : s.exp = none) (et : t.exp = none) (cs : Canon p s)
    (ct : Canon q t) (hn : s.neg = t.neg) (hm : mag s = mag t) : s = t := by
  have key : ∀ t : NumTok, t.WF → ((decVal (t.frac.getD []) : ℚ) / 10 ^ (t.frac.getD []).length < 1) := by
    intro t ht
    rw [div_lt_one (by positivity)]
    have : decVal (t.frac.getD []) < 10 ^ (t.frac.getD []).length := by
      refine decVal_lt _ ?_
      cases hf : t.frac with
      | none => simp
      | some f => exact (ht.frac f (by rw [hf]; rfl)).2
    exact_mod_cast this
  have ks := key s hs
  have kt := key t ht
  have ps : (0 : ℚ) ≤ (decVal (s.frac.getD []) : ℚ) / 10 ^ (s.frac.getD []).length := by positivity
  have pt : (0 : ℚ) ≤ (decVal (t.frac.getD []) : ℚ) / 10 ^ (t.frac.getD []).length := by positivity
  unfold mag at hm
  rw [es, et] at hm
  simp only [expVal, zpow_zero, mul_one] at hm
  have hi : decVal s.int = decVal t.int := by
    have h1 : (decVal s.int : ℚ) < decVal t.int + 1 := by linarith
    have h2 : (decVal t.int : ℚ) < decVal s.int + 1 := by linarith
    have h1' : decVal s.int < decVal t.int + 1 := by exact_mod_cast h1
    have h2' : decVal t.int < decVal s.int + 1 := by exact_mod_cast h2
    omega
  rw [hi] at hm
  have hf := add_left_cancel hm
  rw [div_eq_div_iff (by positivity) (by positivity)] at hf
  have hf' : decVal (s.frac.getD []) * 10 ^ (t.frac.getD []).length = decVal (t.frac.getD []) * 10 ^ (s.frac.getD []).length := by
    exact_mod_cast hf
  have eint := int_unique hs.int.1 ht.int.1 hs.int.2 ht.int.2 hi
  have efrac : s.frac = t.frac := by
    have nz : ∀ {f : Bytes}, Digits1 f → f.getLast? ≠ some 48 → decVal f ≠ 0 := by
      intro f h1 h2 h3
      exact last_mod f h1 h2 (by rw [h3])
    cases h1 : s.frac with
    | none =>
      cases h2 : t.frac with
      | none => rfl
      | some g =>
        rw [h1, h2] at hf'
        have := nz (ht.frac g (by rw [h2]; rfl)) (ct g (by rw [h2]; rfl)).2
        simp [decVal] at hf'
        exact absurd hf'.symm this
    | some f =>
      have f1 := hs.frac f (by rw [h1]; rfl)
      have f2 := (cs f (by rw [h1]; rfl)).2
      cases h2 : t.frac with
      | none =>
        rw [h1, h2] at hf'
        simp [decVal] at hf'
        exact absurd hf' (nz f1 f2)
      | some g =>
        have g1 := ht.frac g (by rw [h2]; rfl)
        have g2 := (ct g (by rw [h2]; rfl)).2
        rw [h1, h2] at hf'
        dsimp only [Option.getD_some] at hf'
        have l1 := frac_le g1 g2 hf'
        have l2 := frac_le f1 f2 hf'.symm
        have hl : f.length = g.length := by omega
        rw [hl] at hf'
        rw [digits_unique f1.2 g1.2 hl (Nat.eq_of_mul_eq_mul_right (by positivity) hf')]
  cases s; cases t
  simp_all

end Imt.Fp
