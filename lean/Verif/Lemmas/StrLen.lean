import Verif.Lemmas.ParserSound
import Mathlib.Tactic.SplitIfs
import Mathlib.Tactic.NormNum
/-!
# A parsed string is shorter than its text
-/
namespace Imt.StrLen
open Imt Parser Utf8

theorem wide_len (w : Nat) : (wideToUtf8 w).length ≤ 4 := by
  unfold wideToUtf8; split_ifs <;> simp

theorem wide_len2 (w : Nat) (h : w < 2 ^ 11) : (wideToUtf8 w).length ≤ 2 := by
  unfold wideToUtf8; split_ifs <;> simp <;> omega

theorem wide_len3 (w : Nat) (h : w < 2 ^ 16) : (wideToUtf8 w).length ≤ 3 := by
  unfold wideToUtf8; split_ifs <;> simp <;> omega

theorem store_len {w n : Nat} (h : (wideToUtf8 w).length ≤ n) : (storeUnicode w).length ≤ n := by
  unfold storeUnicode; split
  · simp
  · exact h

/-- Bytes taken by the decoder and not yet paid out: `p` for state `d`. -/
def Credit (d : Dec) (p : Nat) : Prop :=
  (p = 0 ∧ (d.b = 0 ∨ 4 ≤ d.b)) ∨ (p = 1 ∧ d.b = 3) ∨ (p = 1 ∧ d.b = 2 ∧ d.uchar < 2 ^ 4) ∨ (p = 2 ∧ d.b = 2) ∨
    (p = 1 ∧ d.b = 1 ∧ d.uchar < 2 ^ 5) ∨ (p = 2 ∧ d.b = 1 ∧ d.uchar < 2 ^ 10) ∨ (p = 3 ∧ d.b = 1)

theorem shl_or_lt (u x k : Nat) (hu : u < 2 ^ k) (hx : x < 64) : ((u <<< 6) % 2 ^ 32) ||| x < 2 ^ (k + 6) := by
  apply Nat.or_lt_two_pow
  · refine lt_of_le_of_lt (Nat.mod_le _ _) ?_
    rw [Nat.shiftLeft_eq, pow_add]
    exact Nat.mul_lt_mul_of_pos_right hu (by norm_num)
  · calc x < 2 ^ 6 := hx
      _ ≤ 2 ^ (k + 6) := Nat.pow_le_pow_right (by norm_num) (by omega)

theorem ext_one (cfg : Cfg) (c : Nat) (hs : cfg.signedSrc = true) : (storeUnicode (cfg.ext c)).length ≤ 1 := by
  apply store_len
  have h : cfg.ext c < 128 ∨ 2 ^ 31 ≤ cfg.ext c := by
    unfold Cfg.ext
    split
    · right; omega
    · next h => left; by_contra hh; exact h ⟨hs, by omega⟩
  unfold wideToUtf8
  rw [if_pos h]
  simp

theorem step_credit (cfg : Cfg) (d : Dec) (p c : Nat) (hb : d.b < 2 ^ 32) (h : Credit d p) (hs : cfg.signedSrc = true) :
    ∃ q, Credit (d.step (cfg.ext c)).1 q ∧ (d.step (cfg.ext c)).1.b < 2 ^ 32 ∧
      (((d.step (cfg.ext c)).2.map storeUnicode).getD []).length + q ≤ p + 1 := by
  have h1 := ext_one cfg c hs
  generalize cfg.ext c = x at h1 ⊢
  have hx : x &&& 0x3F < 64 := lt_of_le_of_lt Nat.and_le_right (by norm_num)
  have hx3 : x &&& 0x0F < 16 := lt_of_le_of_lt Nat.and_le_right (by norm_num)
  have hx2 : x &&& 0x1F < 32 := lt_of_le_of_lt Nat.and_le_right (by norm_num)
  unfold Dec.step
  dsimp only
  split
  · dsimp only
    have hb' : (d.b + (2 ^ 32 - 1)) % 2 ^ 32 < 2 ^ 32 := Nat.mod_lt _ (by norm_num)
    have hbe : (d.b + (2 ^ 32 - 1)) % 2 ^ 32 = if d.b = 0 then 2 ^ 32 - 1 else d.b - 1 := by
      split
      · next e => rw [e]; norm_num
      · omega
    have l4 := store_len (wide_len (((d.uchar <<< 6) % 2 ^ 32) ||| (x &&& 0x3F)))
    rcases h with ⟨rfl, h | h⟩ | ⟨rfl, h⟩ | ⟨rfl, h, hu⟩ | ⟨rfl, h⟩ | ⟨rfl, h, hu⟩ | ⟨rfl, h, hu⟩ | ⟨rfl, h⟩
    · rw [if_pos h] at hbe
      rw [hbe]
      exact ⟨0, Or.inl ⟨rfl, Or.inr (by norm_num)⟩, by norm_num, by simp⟩
    · rw [if_neg (by omega)] at hbe
      rw [hbe, if_neg (by omega)]
      by_cases h4 : d.b = 4
      · exact ⟨1, Or.inr (Or.inl ⟨rfl, by rw [h4]⟩), (by omega : d.b - 1 < 2 ^ 32), by simp⟩
      · exact ⟨0, Or.inl ⟨rfl, Or.inr (by omega : 4 ≤ d.b - 1)⟩, (by omega : d.b - 1 < 2 ^ 32), by simp⟩
    · rw [h, if_neg (by norm_num)] at hbe
      rw [h, hbe, if_neg (by norm_num)]
      exact ⟨2, Or.inr (Or.inr (Or.inr (Or.inl ⟨rfl, rfl⟩))), by norm_num, by simp⟩
    · rw [h, if_neg (by norm_num)] at hbe
      rw [h, hbe, if_neg (by norm_num)]
      have := shl_or_lt d.uchar (x &&& 0x3F) 4 hu hx
      exact ⟨2, Or.inr (Or.inr (Or.inr (Or.inr (Or.inr (Or.inl ⟨rfl, rfl, this⟩))))), by norm_num, by simp⟩
    · rw [h, if_neg (by norm_num)] at hbe
      rw [h, hbe, if_neg (by norm_num)]
      exact ⟨3, Or.inr (Or.inr (Or.inr (Or.inr (Or.inr (Or.inr ⟨rfl, rfl⟩))))), by norm_num, by simp⟩
    · rw [h, if_neg (by norm_num)] at hbe
      rw [h, hbe, if_pos (by norm_num)]
      have := store_len (wide_len2 _ (shl_or_lt d.uchar (x &&& 0x3F) 5 hu hx))
      exact ⟨0, Or.inl ⟨rfl, Or.inl rfl⟩, by norm_num, this⟩
    · rw [h, if_neg (by norm_num)] at hbe
      rw [h, hbe, if_pos (by norm_num)]
      have := store_len (wide_len3 _ (shl_or_lt d.uchar (x &&& 0x3F) 10 hu hx))
      exact ⟨0, Or.inl ⟨rfl, Or.inl rfl⟩, by norm_num, this⟩
    · rw [h, if_neg (by norm_num)] at hbe
      rw [h, hbe, if_pos (by norm_num)]
      exact ⟨0, Or.inl ⟨rfl, Or.inl rfl⟩, by norm_num, l4⟩
  · split
    · exact ⟨1, Or.inr (Or.inr (Or.inr (Or.inr (Or.inl ⟨rfl, rfl, by simpa using hx2⟩)))), by norm_num, by simp⟩
    · split
      · exact ⟨1, Or.inr (Or.inr (Or.inl ⟨rfl, rfl, by simpa using hx3⟩)), by norm_num, by simp⟩
      · split
        · exact ⟨1, Or.inr (Or.inl ⟨rfl, rfl⟩), by norm_num, by simp⟩
        · exact ⟨p, h, hb, by simp only [Option.map_some, Option.getD_some]; omega⟩

theorem readStr_len (cfg : Cfg) (hs : cfg.signedSrc = true) : ∀ (n : Nat) (s : Bytes), s.length ≤ n → ∀ (d : Dec) (p : Nat)
    (b r : Bytes), d.b < 2 ^ 32 → Credit d p → readStr cfg d s = .ok (b, r) → b.length + 1 ≤ s.length + p := by
  intro n
  induction n with
  | zero =>
    intro s hl d p b r _ _ h
    have := List.length_eq_zero_iff.1 (Nat.le_zero.1 hl)
    subst this
    rw [readStr.eq_def] at h
    cases h
  | succ n ih =>
    intro s hl d p b r hb hc h
    cases s with
    | nil => rw [readStr.eq_def] at h; cases h
    | cons c cs =>
      rw [readStr.eq_def] at h
      dsimp only at h
      split at h
      · cases h
      · split at h
        · cases h; simp only [List.length_nil, List.length_cons]; omega
        · split at h
          · split at h
            · cases h
            · next e es =>
              split at h
              · split at h
                · next h1 h2 h3 h4 r' =>
                  obtain ⟨⟨b', r''⟩, e1, e2⟩ := bind_ok_inv h
                  cases e2
                  have := ih r' (by simp at hl; omega) _ _ _ _ hb hc e1
                  have hw := store_len (wide_len (((hexDigit h1 * 16 + hexDigit h2) * 16 + hexDigit h3) * 16 + hexDigit h4))
                  simp only [List.length_append, List.length_cons] at this ⊢
                  omega
                · cases h
              · split at h
                · obtain ⟨⟨b', r''⟩, e1, e2⟩ := bind_ok_inv h
                  cases e2
                  have := ih es (by simp at hl; omega) _ _ _ _ hb hc e1
                  simp only [List.length_cons] at this ⊢
                  omega
                · cases h
          · obtain ⟨⟨b', r''⟩, e1, e2⟩ := bind_ok_inv h
            cases e2
            obtain ⟨q, q1, q2, q3⟩ := step_credit cfg d p c hb hc hs
            have := ih cs (by simp at hl; omega) _ _ _ _ q2 q1 e1
            simp only [List.length_append, List.length_cons] at this ⊢
            omega

/-- The string a text denotes is shorter than the text by the two quotes at least. -/
theorem parse_str_len (cfg : Cfg) (hs : cfg.signedSrc = true) (s t r : Bytes) (h : parse cfg s = .ok (.str t, r)) :
    t.length + 2 ≤ s.length := by
  unfold parse at h
  rw [parseV.eq_def] at h
  dsimp only at h
  have hw : (skipWs s).length ≤ s.length := (List.dropWhile_suffix _).length_le
  split at h
  · cases h
  · next c rr hsk =>
    rw [hsk] at hw
    simp only [List.length_cons] at hw
    split at h
    · split at h
      · cases h
      · split at h
        · cases h
        · obtain ⟨m, -, h2⟩ := bind_ok_inv h
          unfold finishObj at h2
          dsimp only at h2
          split at h2 <;> cases h2
    · split at h
      · split at h
        · cases h
        · split at h
          · cases h
          · obtain ⟨m, -, h2⟩ := bind_ok_inv h
            cases h2
      · split at h
        · obtain ⟨⟨b, r'⟩, h1, h2⟩ := bind_ok_inv h
          have hl := readStr_len cfg hs _ rr (le_refl _) Utf8.Dec.init 0 b r' (by decide) (Or.inl ⟨rfl, Or.inl rfl⟩) h1
          have hb : b = t := by
            unfold stringValue at h2
            simp only [Res.pure_eq, Res.ok.injEq, Prod.mk.injEq] at h2
            obtain ⟨h2, -⟩ := h2
            split at h2
            · cases h2
            · split at h2
              · cases h2
              · injection h2
          subst hb
          omega
        · split at h
          · obtain ⟨_, -, h2⟩ := bind_ok_inv h; cases h2
          · split at h
            · obtain ⟨_, -, h2⟩ := bind_ok_inv h; cases h2
            · split at h
              · obtain ⟨_, -, h2⟩ := bind_ok_inv h; cases h2
              · split at h
                · exfalso
                  unfold parseNumber at h
                  split at h
                  · obtain ⟨_, -, h2⟩ := bind_ok_inv h; cases h2
                  · dsimp only at h
                    split at h
                    · cases h
                    · split at h
                      · split at h
                        · unfold parseDouble at h
                          dsimp only at h
                          split at h
                          · cases h
                          · obtain ⟨_, -, h2⟩ := bind_ok_inv h
                            obtain ⟨_, -, h3⟩ := bind_ok_inv h2
                            cases h3
                        · split at h
                          · split at h
                            · cases h
                            · unfold valueOfInt at h
                              simp only [Res.ok.injEq, Prod.mk.injEq] at h
                              obtain ⟨h, -⟩ := h
                              split at h <;> cases h
                          · cases h
                      · cases h
                · cases h

end Imt.StrLen
