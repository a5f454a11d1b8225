import Verif.Model.ParserCnt
/-!
# C161: digits of numbers are counted and taken in chunks
-/
namespace Imt.Props
open Imt Imt.Parser

/-- Number of digits a text starts with. -/
def leadDigits (s : Bytes) : Nat := (s.takeWhile isDigit).length

theorem unsignedC_eq : ∀ (s : Bytes) (res cnt : Nat), cnt + leadDigits s < 2 ^ 31 →
    ∃ n, parseUnsignedC res cnt s = .ok ((parseUnsigned res s).1, (parseUnsigned res s).2.1, cnt + n, (parseUnsigned res s).2.2) ∧
      s.drop n = (parseUnsigned res s).2.2 ∧ n ≤ leadDigits s
  | [], res, cnt, _ => ⟨0, rfl, rfl, Nat.zero_le _⟩
  | c :: cs, res, cnt, h => by
    by_cases hd : isDigit c = true
    · have hl : leadDigits (c :: cs) = leadDigits cs + 1 := by simp [leadDigits, hd]
      unfold parseUnsignedC parseUnsigned
      simp only [hd, if_true]
      by_cases h1 : res > (2 ^ 64 - 1) / 10
      · rw [if_pos h1, if_pos h1]
        exact ⟨0, rfl, rfl, Nat.zero_le _⟩
      · rw [if_neg h1, if_neg h1]
        by_cases h2 : (res * 10 + (c - 48)) % 2 ^ 64 < res
        · rw [if_pos h2, if_pos h2]
          exact ⟨0, rfl, rfl, Nat.zero_le _⟩
        · rw [if_neg h2, if_neg h2, if_neg (by omega)]
          obtain ⟨n, e1, e2, e3⟩ := unsignedC_eq cs ((res * 10 + (c - 48)) % 2 ^ 64) (cnt + 1) (by omega)
          refine ⟨n + 1, ?_, e2, by omega⟩
          rw [e1, show cnt + 1 + n = cnt + (n + 1) by omega]
    · unfold parseUnsignedC parseUnsigned
      rw [if_neg hd, if_neg hd]
      exact ⟨0, rfl, rfl, Nat.zero_le _⟩

/-- **C161, counter**: for texts which start with fewer than 2^31 digits the counter is the number of characters taken, and the result
is that of the parser without the counter. -/
theorem C161_counter (s : Bytes) (h : leadDigits s < 2 ^ 31) :
    ∃ n, parseUnsignedC 0 0 s = .ok ((parseUnsigned 0 s).1, (parseUnsigned 0 s).2.1, n, (parseUnsigned 0 s).2.2) ∧
      s.drop n = (parseUnsigned 0 s).2.2 ∧ n ≤ leadDigits s := by
  obtain ⟨n, h1, h2, h3⟩ := unsignedC_eq s 0 0 (by omega)
  exact ⟨n, by rw [h1, Nat.zero_add], h2, h3⟩

example : leadDigits (ascii "007e5") < 2 ^ 31 ∧ parseUnsignedC 0 0 (ascii "007e5") = .ok (true, 7, 3, ascii "e5") := by decide +kernel

/-! ### Chunks -/

theorem digitsVal_count (s : Bytes) : ∀ (acc n : Nat), digitsVal acc n s = ((digitsVal acc 0 s).1, n + (digitsVal acc 0 s).2.1, (digitsVal acc 0 s).2.2) := by
  induction s with
  | nil => intro acc n; rfl
  | cons c cs ih =>
    intro acc n
    unfold digitsVal
    split
    · rw [ih _ (n + 1), ih _ (0 + 1)]
      simp only [Prod.mk.injEq, true_and, and_true]
      omega
    · rfl

/-- One chunk: `parseUnsigned` from `res`, when nothing wrapped, takes the digits `d` in front of the rest. -/
theorem unsigned_chunk : ∀ (s : Bytes) (res cnt : Nat), res < 2 ^ 64 → cnt + leadDigits s < 2 ^ 31 →
    ∃ n part rest full, parseUnsignedC res cnt s = .ok (full, part, cnt + n, rest) ∧ n ≤ leadDigits s ∧
      rest.length + n = s.length ∧ (n = 0 → (leadDigits s = 0 ∨ res * 10 ≥ 2 ^ 64 - 10)) ∧ leadDigits rest + n = leadDigits s ∧
      ∀ acc m, (digitsVal (acc * 10 ^ cnt + res) m s).1 = (digitsVal (acc * 10 ^ (cnt + n) + part) m rest).1 ∧
        (digitsVal (acc * 10 ^ cnt + res) m s).2.2 = (digitsVal (acc * 10 ^ (cnt + n) + part) m rest).2.2
  | [], res, cnt, _, _ => ⟨0, res, [], true, rfl, Nat.zero_le _, rfl, fun _ => Or.inl rfl, rfl, fun _ _ => ⟨rfl, rfl⟩⟩
  | c :: cs, res, cnt, hr, h => by
    by_cases hd : isDigit c = true
    · have hl : leadDigits (c :: cs) = leadDigits cs + 1 := by simp [leadDigits, hd]
      have hc : 48 ≤ c ∧ c ≤ 57 := by simpa [isDigit] using hd
      unfold parseUnsignedC
      simp only [hd, if_true]
      by_cases h1 : res > (2 ^ 64 - 1) / 10
      · rw [if_pos h1]
        exact ⟨0, res, c :: cs, false, rfl, Nat.zero_le _, rfl, fun _ => Or.inr (by omega), rfl, fun _ _ => ⟨rfl, rfl⟩⟩
      · rw [if_neg h1]
        by_cases h2 : (res * 10 + (c - 48)) % 2 ^ 64 < res
        · rw [if_pos h2]
          have hw : ¬ res * 10 + (c - 48) < 2 ^ 64 := by
            intro hlt
            rw [Nat.mod_eq_of_lt hlt] at h2
            omega
          exact ⟨0, res, c :: cs, false, rfl, Nat.zero_le _, rfl, fun _ => Or.inr (by omega), rfl, fun _ _ => ⟨rfl, rfl⟩⟩
        · rw [if_neg h2, if_neg (by omega)]
          have hsm : res * 10 + (c - 48) < 2 ^ 64 := by omega
          rw [Nat.mod_eq_of_lt hsm]
          obtain ⟨n, part, rest, full, e1, e2, e3, -, e5, e6⟩ := unsigned_chunk cs (res * 10 + (c - 48)) (cnt + 1) hsm (by omega)
          refine ⟨n + 1, part, rest, full, ?_, by omega, ?_, by omega, by omega, ?_⟩
          · rw [e1, show cnt + 1 + n = cnt + (n + 1) by omega]
          · rw [List.length_cons]; omega
          · intro acc m
            have e := e6 acc (m + 1)
            rw [show cnt + 1 + n = cnt + (n + 1) by omega] at e
            have hx : (acc * 10 ^ cnt + res) * 10 + (c - 48) = acc * 10 ^ (cnt + 1) + (res * 10 + (c - 48)) := by
              rw [Nat.pow_succ, Nat.add_mul, Nat.mul_assoc]; omega
            rw [digitsVal, if_pos hd, hx]
            rw [digitsVal_count rest _ (m + 1)] at e
            rw [digitsVal_count rest _ m]
            exact e
    · have hl : leadDigits (c :: cs) = 0 := by simp [leadDigits, hd]
      unfold parseUnsignedC
      rw [if_neg hd]
      exact ⟨0, res, c :: cs, true, rfl, Nat.zero_le _, rfl, fun _ => Or.inl hl, rfl, fun _ _ => ⟨rfl, rfl⟩⟩

/-- **C161, chunks**: taking the digits of a large number in chunks that fit an integer gives the number all the digits denote. -/
theorem C161_chunks (s : Bytes) (h : leadDigits s < 2 ^ 31) (acc k : Nat) :
    ∃ rounds, largeLoop (s.length + 1) acc k s = .ok ((digitsVal acc 0 s).1, k + rounds, (digitsVal acc 0 s).2.2) := by
  have key : ∀ (f : Nat) (s : Bytes), s.length ≤ f → leadDigits s < 2 ^ 31 → ∀ acc k,
      ∃ rounds, largeLoop f acc k s = .ok ((digitsVal acc 0 s).1, k + rounds, (digitsVal acc 0 s).2.2) := by
    intro f
    induction f with
    | zero =>
      intro s hs _ acc k
      cases s with
      | nil => exact ⟨0, by simp [largeLoop, digitsVal]⟩
      | cons c cs => simp at hs
    | succ f ih =>
      intro s hs hl acc k
      cases s with
      | nil => exact ⟨0, by simp [largeLoop, digitsVal]⟩
      | cons c cs =>
        by_cases hd : isDigit c = true
        · obtain ⟨n, part, rest, full, e1, e2, e3, e4, e5, e6⟩ := unsigned_chunk (c :: cs) 0 0 (by decide) (by omega)
          have hpos : 0 < leadDigits (c :: cs) := by simp [leadDigits, hd]
          have hn : n ≠ 0 := by
            intro h0
            rcases e4 h0 with h | h
            · omega
            · exact absurd h (by decide)
          obtain ⟨r, hr⟩ := ih rest (by omega) (by omega) (acc * 10 ^ n + part) (k + 1)
          refine ⟨r + 1, ?_⟩
          rw [largeLoop, if_pos hd, e1]
          simp only [Nat.zero_add, Res.bind_ok]
          rw [hr]
          have e := e6 acc 0
          simp only [Nat.zero_add, Nat.pow_zero, Nat.mul_one, Nat.add_zero] at e
          rw [e.1, e.2, show k + 1 + r = k + (r + 1) by omega]
        · refine ⟨0, ?_⟩
          rw [largeLoop, if_neg hd, digitsVal, if_neg hd]
          rfl
  exact key (s.length + 1) s (by omega) h acc k

/-- A number of three chunks. -/
example : leadDigits (ascii "123456789012345678901234567890123456789012345x") < 2 ^ 31 ∧
    largeLoop 47 0 0 (ascii "123456789012345678901234567890123456789012345x") = .ok (123456789012345678901234567890123456789012345, 3, ascii "x") := by
  decide +kernel

/-- **C161, violation**: a number that starts with 2^31 or more zeros overflows the counter. -/
theorem C161_violation_zeros (n : Nat) (hn : 2 ^ 31 ≤ n) (rest : Bytes) : parseUnsignedC 0 0 (List.replicate n 48 ++ rest) = .ub := by
  have key : ∀ (m cnt : Nat), cnt ≤ 2 ^ 31 - 1 → 2 ^ 31 ≤ cnt + m → parseUnsignedC 0 cnt (List.replicate m 48 ++ rest) = .ub := by
    intro m
    induction m with
    | zero => intro cnt h1 h2; omega
    | succ m ih =>
      intro cnt h1 h2
      rw [List.replicate_succ, List.cons_append, parseUnsignedC, if_pos (by decide), if_neg (by decide)]
      simp only [Nat.zero_mul, Nat.sub_self, Nat.add_zero, Nat.zero_mod, Nat.lt_irrefl, if_false]
      by_cases h : cnt = 2 ^ 31 - 1
      · rw [if_pos h]
      · rw [if_neg h]
        exact ih (cnt + 1) (by omega) (by omega)
  exact key n 0 (by decide) (by omega)

example : (2 : Nat) ^ 31 ≤ 2 ^ 31 + 5 := by decide

/-- **C161, decimals**: the counter of decimals is their number modulo 2^32, so after 2^32 of them the decimal point is put elsewhere. -/
theorem C161_decimals (ds rest : Bytes) (hd : ∀ c ∈ ds, isDigit c = true) (hr : leadDigits rest = 0) : fracCount 0 (ds ++ rest) = ds.length % 2 ^ 32 := by
  have key : ∀ (ds : Bytes), (∀ c ∈ ds, isDigit c = true) → ∀ pos, pos < 2 ^ 32 → fracCount pos (ds ++ rest) = (pos + ds.length) % 2 ^ 32 := by
    intro ds
    induction ds with
    | nil =>
      intro _ pos hp
      cases rest with
      | nil => simp [fracCount, Nat.mod_eq_of_lt hp]
      | cons c cs =>
        have : isDigit c = false := by
          cases hx : isDigit c with
          | false => rfl
          | true => simp [leadDigits, hx] at hr
        simp [fracCount, this, Nat.mod_eq_of_lt hp]
    | cons c cs ih =>
      intro h pos hp
      rw [List.cons_append, fracCount, if_pos (h c (by simp)), ih (fun x hx => h x (by simp [hx])) _ (Nat.mod_lt _ (by decide)), List.length_cons]
      omega
  have := key ds hd 0 (by decide)
  simpa using this

example : (∀ c ∈ ascii "250", isDigit c = true) ∧ leadDigits (ascii "e1") = 0 ∧ fracCount 0 (ascii "250e1") = 3 := by decide +kernel

end Imt.Props
