import Verif.Spec.Order
import Mathlib.Data.List.Basic
/-! Consequences of `Lawful`. -/
namespace Imt.Spec
variable {α : Type} {cmp : α → α → Int}

theorem Lawful.zero_swap (h : Lawful cmp) {a b : α} (e : cmp a b = 0) : cmp b a = 0 := by
  have h1 := h.swap a b
  have h2 := h.swap b a
  omega

theorem Lawful.pos_iff (h : Lawful cmp) (a b : α) : 0 < cmp a b ↔ cmp b a < 0 := (h.swap b a).symm

theorem Lawful.le_iff (h : Lawful cmp) (a b : α) : cmp a b ≤ 0 ↔ 0 ≤ cmp b a := by
  have := h.swap b a; omega

theorem Lawful.refl (h : Lawful cmp) (a : α) : cmp a a = 0 := by
  have := h.swap a a; omega

theorem Lawful.eq_trans (h : Lawful cmp) {a b c : α} (e1 : cmp a b = 0) (e2 : cmp b c = 0) : cmp a c = 0 := by
  have h1 := h.trans a b c (by omega) (by omega)
  have h2 := h.trans c b a (by have := h.zero_swap e2; omega) (by have := h.zero_swap e1; omega)
  have := h.le_iff c a
  omega

theorem Lawful.lt_of_lt_of_le (h : Lawful cmp) {a b c : α} (e1 : cmp a b < 0) (e2 : cmp b c ≤ 0) : cmp a c < 0 := by
  have h1 := h.trans a b c (by omega) e2
  by_cases hc : cmp a c < 0
  · exact hc
  · have h0 : cmp a c = 0 := by omega
    have h2 := h.trans b c a e2 (by have := h.zero_swap h0; omega)
    have := h.le_iff b a
    omega

theorem Lawful.lt_of_le_of_lt (h : Lawful cmp) {a b c : α} (e1 : cmp a b ≤ 0) (e2 : cmp b c < 0) : cmp a c < 0 := by
  have h1 := h.trans a b c e1 (by omega)
  by_cases hc : cmp a c < 0
  · exact hc
  · have h0 : cmp a c = 0 := by omega
    have h2 := h.trans c a b (by have := h.zero_swap h0; omega) e1
    have := h.le_iff c b
    omega

theorem Lawful.congr_left (h : Lawful cmp) {a b : α} (e : cmp a b = 0) (c : α) : (cmp a c = 0 ↔ cmp b c = 0) :=
  ⟨fun x => h.eq_trans (h.zero_swap e) x, fun x => h.eq_trans e x⟩

theorem Lawful.le_congr_left (h : Lawful cmp) {a b : α} (e : cmp a b = 0) (c : α) : (cmp a c ≤ 0 ↔ cmp b c ≤ 0) :=
  ⟨fun x => h.trans _ _ _ (by have := h.zero_swap e; omega) x, fun x => h.trans _ _ _ (by omega) x⟩

theorem Lawful.le_congr_right (h : Lawful cmp) {a b : α} (e : cmp a b = 0) (c : α) : (cmp c a ≤ 0 ↔ cmp c b ≤ 0) :=
  ⟨fun x => h.trans _ _ _ x (by omega), fun x => h.trans _ _ _ x (by have := h.zero_swap e; omega)⟩

theorem count_cons (x y : α) (l : List α) : count cmp x (y :: l) = count cmp x l + if cmp x y = 0 then 1 else 0 := by
  simp [count, List.countP_cons]

theorem count_nil (x : α) : count cmp x [] = 0 := rfl

/-- An item below the first one of a sorted list has no equivalent in it. -/
theorem count_zero_of_lt (h : Lawful cmp) {x y : α} {l : List α} (hs : Sorted cmp (y :: l)) (hl : cmp x y < 0) :
    count cmp x (y :: l) = 0 := by
  unfold count
  rw [List.countP_eq_zero]
  intro z hz
  have : cmp x z < 0 := by
    rcases List.mem_cons.1 hz with rfl | hz
    · exact hl
    · exact h.lt_of_lt_of_le hl (List.rel_of_pairwise_cons hs hz)
  simp; omega

theorem count_congr (h : Lawful cmp) {x y : α} (e : cmp x y = 0) (l : List α) : count cmp x l = count cmp y l := by
  unfold count
  apply List.countP_congr
  intro z _
  simpa using h.congr_left e z

theorem count_pos_iff (x : α) (l : List α) : 0 < count cmp x l ↔ ∃ y ∈ l, cmp x y = 0 := by
  unfold count
  rw [List.countP_pos_iff]
  simp

end Imt.Spec
