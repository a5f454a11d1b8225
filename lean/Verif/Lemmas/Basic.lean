import Verif.Model.Base
/-! # General lemmas -/
namespace Imt

theorem takeWhile_all {α} (p : α → Bool) (l : List α) (h : ∀ x ∈ l, p x = true) : l.takeWhile p = l := by
  induction l with
  | nil => rfl
  | cons a l ih =>
    rw [List.takeWhile_cons, if_pos (h a (by simp)), ih (fun x hx => h x (by simp [hx]))]

theorem cmpBytes_self (a : Bytes) : cmpBytes a a = .eq := by
  induction a with
  | nil => rfl
  | cons x xs ih => simp [cmpBytes, ih]

theorem cmpBytes_eq_iff (a b : Bytes) : cmpBytes a b = .eq ↔ a = b := by
  induction a generalizing b with
  | nil => cases b <;> simp [cmpBytes]
  | cons x xs ih =>
    cases b with
    | nil => simp [cmpBytes]
    | cons y ys =>
      simp only [cmpBytes, List.cons.injEq]
      split
      · simp; omega
      split
      · simp; omega
      · rw [ih]; constructor
        · intro h; exact ⟨by omega, h⟩
        · exact fun h => h.2

theorem cmpBytes_swap (a b : Bytes) : cmpBytes b a = (cmpBytes a b).swap := by
  induction a generalizing b with
  | nil => cases b <;> rfl
  | cons x xs ih =>
    cases b with
    | nil => rfl
    | cons y ys =>
      simp only [cmpBytes]
      rcases Nat.lt_trichotomy x y with h | h | h
      · simp [h, Nat.not_lt.2 (Nat.le_of_lt h)]
      · subst h; simp [ih]
      · simp [h, Nat.not_lt.2 (Nat.le_of_lt h)]

theorem cmpBytes_gt_iff (a b : Bytes) : cmpBytes a b = .gt ↔ cmpBytes b a = .lt := by
  rw [cmpBytes_swap a b]; cases cmpBytes a b <;> simp

theorem cmpBytes_lt_trans {a b c : Bytes} (h1 : cmpBytes a b = .lt) (h2 : cmpBytes b c = .lt) :
    cmpBytes a c = .lt := by
  induction a generalizing b c with
  | nil =>
    cases b with
    | nil => simp [cmpBytes] at h1
    | cons y ys => cases c with
      | nil => simp [cmpBytes] at h2
      | cons z zs => rfl
  | cons x xs ih =>
    cases b with
    | nil => simp [cmpBytes] at h1
    | cons y ys => cases c with
      | nil => simp [cmpBytes] at h2
      | cons z zs =>
        simp only [cmpBytes] at h1 h2 ⊢
        split at h1
        · split at h2
          · rw [if_pos (by omega)]
          · split at h2
            · simp at h2
            · rw [if_pos (by omega)]
        · split at h1
          · simp at h1
          · split at h2
            · rw [if_pos (by omega)]
            · split at h2
              · simp at h2
              · rw [if_neg (by omega), if_neg (by omega)]; exact ih h1 h2

theorem ltBytes_irrefl (a : Bytes) : ltBytes a a = false := by simp [ltBytes, cmpBytes_self]
theorem ltBytes_trans {a b c : Bytes} (h1 : ltBytes a b = true) (h2 : ltBytes b c = true) : ltBytes a c = true := by
  simp only [ltBytes, beq_iff_eq] at *; exact cmpBytes_lt_trans h1 h2
theorem ltBytes_asymm {a b : Bytes} (h1 : ltBytes a b = true) : ltBytes b a = false := by
  simp only [ltBytes, beq_iff_eq] at *
  rw [cmpBytes_swap a b, h1]; rfl
theorem ltBytes_tri (a b : Bytes) : ltBytes a b = true ∨ a = b ∨ ltBytes b a = true := by
  simp only [ltBytes, beq_iff_eq]
  rw [cmpBytes_swap a b]
  cases h : cmpBytes a b
  · simp
  · exact Or.inr (Or.inl ((cmpBytes_eq_iff a b).1 h))
  · simp

end Imt
