import Verif.Model.Ordered
import Verif.Lemmas.Order
import Verif.Props.ValueOps
/-!
# C45–C48, C77, C78: ordered containers, grouping, merging
-/
namespace Imt.Props
open Imt Imt.VOps Imt.Ord Imt.Spec

variable {α : Type} {cmp : α → α → Int}

theorem sorted_idx (u : α) {a : Arr α} (hs : Sorted cmp (a.items u)) {i j : Nat} (hij : i < j) (hj : j < a.size) :
    cmp (a.item u i) (a.item u j) ≤ 0 := by
  have := List.pairwise_iff_getElem.1 hs i j (by rw [items_length]; omega) (by rw [items_length]; omega) hij
  have e1 := items_get u a i (by omega)
  have e2 := items_get u a j hj
  rw [List.getElem?_eq_getElem (by rw [items_length]; omega)] at e1 e2
  rwa [Option.some.inj e1, Option.some.inj e2] at this

theorem sorted_idx' (h : Lawful cmp) (u : α) {a : Arr α} (hs : Sorted cmp (a.items u)) {i j : Nat} (hij : i ≤ j)
    (hj : j < a.size) : cmp (a.item u i) (a.item u j) ≤ 0 := by
  rcases Nat.lt_or_eq_of_le hij with hlt | rfl
  · exact sorted_idx u hs hlt hj
  · have := h.refl (a.item u i); omega

theorem findLoop_spec (h : Lawful cmp) (u : α) (a : Arr α) (hs : Sorted cmp (a.items u)) (x : α) : ∀ n l hi,
    hi ≤ a.size → hi - l ≤ n → (∀ i, i < l → i < a.size → 0 < cmp x (a.item u i)) →
    (∀ i, hi ≤ i → i < a.size → cmp x (a.item u i) < 0) →
    match Ord.findLoop cmp u a x n l hi with
    | some m => m < a.size ∧ cmp x (a.item u m) = 0
    | none => ∀ i, i < a.size → cmp x (a.item u i) ≠ 0
  | 0, l, hi, _, hn, h1, h2 => by
    rw [Ord.findLoop]
    intro i hi'
    by_cases hl : i < l
    · have := h1 i hl hi'; omega
    · have := h2 i (by omega) hi'; omega
  | n + 1, l, hi, hh, hn, h1, h2 => by
    rw [Ord.findLoop]
    by_cases hlt : l < hi
    · rw [if_pos hlt]
      have hm : (l + hi) / 2 < hi := by omega
      have hm' : l ≤ (l + hi) / 2 := by omega
      generalize (l + hi) / 2 = m at *
      by_cases c1 : cmp x (a.item u m) < 0
      · simp only [if_pos c1]
        refine findLoop_spec h u a hs x n l m (by omega) (by omega) h1 ?_
        intro i hi1 hi2
        exact h.lt_of_lt_of_le c1 (sorted_idx' h u hs hi1 hi2)
      · simp only [if_neg c1]
        by_cases c2 : cmp x (a.item u m) > 0
        · rw [if_pos c2]
          refine findLoop_spec h u a hs x n (m + 1) hi hh (by omega) ?_ h2
          intro i hi1 hi2
          rw [h.pos_iff]
          exact h.lt_of_le_of_lt (sorted_idx' h u hs (show i ≤ m by omega) (by omega)) ((h.pos_iff _ _).1 c2)
        · rw [if_neg c2]
          exact ⟨by omega, by omega⟩
    · rw [if_neg hlt]
      intro i hi'
      by_cases hl : i < l
      · have := h1 i hl hi'; omega
      · have := h2 i (by omega) hi'; omega

theorem iterAdd_small (m : Nat) (h : m < 2 ^ 31) : iterAdd 0 m = m := by unfold iterAdd wrap32; omega

/-- C45 (partial): in a container sorted by a lawful comparison, `find` gives the position of an equal item if there is
one, and the end otherwise. Missing: containers with more than 2^31 items (`C45_violation_large`). -/
theorem C45_find_partial (h : Lawful cmp) (u : α) (a : Arr α) (hs : Sorted cmp (a.items u)) (hz : a.size ≤ 2 ^ 31) (x : α) :
    (Ord.find cmp u a x < a.size ∧ cmp x (a.item u (Ord.find cmp u a x)) = 0) ∨
    (Ord.find cmp u a x = a.size ∧ ∀ y ∈ a.items u, cmp x y ≠ 0) := by
  have := findLoop_spec h u a hs x a.size 0 a.size (Nat.le_refl _) (by omega) (fun i hi => by omega)
    (fun i h1 h2 => by omega)
  unfold Ord.find
  cases hc : Ord.findLoop cmp u a x a.size 0 a.size with
  | none =>
    rw [hc] at this
    refine .inr ⟨rfl, fun y hy => ?_⟩
    obtain ⟨i, hi, rfl⟩ := List.mem_map.1 hy
    exact this i (by simpa using hi)
  | some m =>
    rw [hc] at this
    left
    simp only [iterAdd_small m (by omega)]
    exact this

/-- C45: the value `find` returns is an equal item of the container, or undefined if there is none. -/
theorem C45_findValue_partial (h : Lawful cmp) (u : α) (a : Arr α) (hs : Sorted cmp (a.items u)) (hz : a.size ≤ 2 ^ 31) (x : α) :
    ((∃ y ∈ a.items u, cmp x y = 0) → findValue cmp u a x ∈ a.items u ∧ cmp x (findValue cmp u a x) = 0) ∧
    ((¬ ∃ y ∈ a.items u, cmp x y = 0) → findValue cmp u a x = u) := by
  unfold findValue
  rcases C45_find_partial h u a hs hz x with ⟨h1, h2⟩ | ⟨h1, h2⟩
  · have hm : a.item u (Ord.find cmp u a x) ∈ a.items u := List.mem_map.2 ⟨_, by simpa using h1, rfl⟩
    rw [if_neg (by omega)]
    exact ⟨fun _ => ⟨hm, h2⟩, fun hn => absurd ⟨_, hm, h2⟩ hn⟩
  · rw [if_pos (by omega)]
    exact ⟨fun ⟨y, hy, he⟩ => absurd he (h2 y hy), fun _ => rfl⟩

theorem backLoop_spec (u : α) (a : Arr α) (x : α) : ∀ n,
    backLoop cmp u a x n ≤ n ∧ (∀ i, backLoop cmp u a x n ≤ i → i < n → cmp (a.item u i) x = 0) ∧
    (0 < backLoop cmp u a x n → cmp (a.item u (backLoop cmp u a x n - 1)) x ≠ 0)
  | 0 => by simp only [backLoop]; exact ⟨Nat.le_refl _, fun i h1 h2 => by omega, fun h => by omega⟩
  | n + 1 => by
    obtain ⟨h1, h2, h3⟩ := backLoop_spec u a x n
    rw [backLoop]
    by_cases hc : cmp (a.item u n) x ≠ 0
    · rw [if_pos hc]
      exact ⟨Nat.le_refl _, fun i q1 q2 => by omega, fun _ => hc⟩
    · rw [if_neg hc]
      refine ⟨by omega, fun i q1 q2 => ?_, h3⟩
      by_cases hi : i = n
      · rw [hi]; omega
      · exact h2 i q1 (by omega)

theorem fwdLoop_spec (u : α) (a : Arr α) (x : α) : ∀ n i, i + n = a.size →
    (0 < n → i < fwdLoop cmp u a x n i) ∧ i ≤ fwdLoop cmp u a x n i ∧ fwdLoop cmp u a x n i ≤ a.size ∧
    (∀ j, i < j → j < fwdLoop cmp u a x n i → cmp (a.item u j) x = 0) ∧
    (fwdLoop cmp u a x n i < a.size → cmp (a.item u (fwdLoop cmp u a x n i)) x ≠ 0)
  | 0, i, h => by
    simp only [fwdLoop]
    exact ⟨fun h => by omega, Nat.le_refl _, by omega, fun j h1 h2 => by omega, fun h' => by omega⟩
  | n + 1, i, h => by
    rw [fwdLoop]
    by_cases hc : cmp (a.item u (i + 1)) x ≠ 0
    · rw [if_pos hc]
      exact ⟨fun _ => by omega, by omega, by omega, fun j h1 h2 => by omega, fun _ => hc⟩
    · rw [if_neg hc]
      obtain ⟨_, h1, h2, h3, h4⟩ := fwdLoop_spec u a x n (i + 1) (by omega)
      refine ⟨fun _ => by omega, by omega, h2, fun j q1 q2 => ?_, h4⟩
      by_cases hj : j = i + 1
      · rw [hj]; omega
      · exact h3 j (by omega) q2

/-- C45: `equalRange` is exactly the range of the equal items. -/
theorem C45_equalRange_partial (h : Lawful cmp) (u : α) (a : Arr α) (hs : Sorted cmp (a.items u)) (hz : a.size ≤ 2 ^ 31) (x : α) :
    (equalRange cmp u a x).1 ≤ (equalRange cmp u a x).2 ∧ (equalRange cmp u a x).2 ≤ a.size ∧
    ∀ i, i < a.size → (cmp x (a.item u i) = 0 ↔ (equalRange cmp u a x).1 ≤ i ∧ i < (equalRange cmp u a x).2) := by
  have hf := C45_find_partial h u a hs hz x
  unfold equalRange
  generalize Ord.find cmp u a x = f at *
  have hfz : f ≤ a.size := by rcases hf with ⟨h1, _⟩ | ⟨h1, _⟩ <;> omega
  obtain ⟨b1, b2, b3⟩ := backLoop_spec (cmp := cmp) u a x f
  simp only
  generalize hb : backLoop cmp u a x f = b at *
  obtain ⟨f0, f1, f2, f3, f4⟩ := fwdLoop_spec (cmp := cmp) u a x (a.size - b) b (by omega)
  generalize fwdLoop cmp u a x (a.size - b) b = e at *
  refine ⟨f1, f2, fun i hi => ?_⟩
  rcases hf with ⟨hlt, heq⟩ | ⟨hend, hno⟩
  · -- found
    have hbb : cmp (a.item u b) x = 0 := by
      by_cases hbf : b = f
      · rw [hbf]; exact h.zero_swap heq
      · exact b2 b (Nat.le_refl _) (by omega)
    constructor
    · intro hx
      constructor
      · by_contra hc
        have h1 := b3 (by omega)
        have h2 : cmp (a.item u (b - 1)) x ≤ 0 :=
          h.trans _ _ _ (sorted_idx' h u hs (show b - 1 ≤ b by omega) (by omega)) (by omega)
        have h3 : cmp x (a.item u (b - 1)) ≤ 0 :=
          h.trans _ _ _ (show cmp x (a.item u i) ≤ 0 by omega) (sorted_idx' h u hs (by omega) (by omega))
        have := h.le_iff x (a.item u (b - 1))
        omega
      · by_contra hc
        have h1 := f4 (by omega)
        have h2 : cmp (a.item u e) x ≤ 0 :=
          h.trans _ _ _ (sorted_idx' h u hs (show e ≤ i by omega) hi) (by have := h.zero_swap hx; omega)
        have h3 : cmp x (a.item u e) ≤ 0 :=
          h.trans _ _ _ (show cmp x (a.item u b) ≤ 0 by have := h.zero_swap hbb; omega)
            (sorted_idx' h u hs (by omega) (by omega))
        have := h.le_iff x (a.item u e)
        omega
    · intro ⟨q1, q2⟩
      by_cases hib : i = b
      · rw [hib]; exact h.zero_swap hbb
      · exact h.zero_swap (f3 i (by omega) q2)
  · -- nothing found
    have hni : ∀ i, i < a.size → cmp x (a.item u i) ≠ 0 := fun i hi =>
      hno _ (List.mem_map.2 ⟨i, by simpa using hi, rfl⟩)
    have hbe : b = a.size := by
      by_contra hc
      exact hni b (by omega) (h.zero_swap (b2 b (Nat.le_refl _) (by omega)))
    constructor
    · intro hx; exact absurd hx (hni i hi)
    · intro ⟨q1, q2⟩; omega

/-- C45: `lowerBound` is the first equal item, the end if there is none. -/
theorem C45_lowerBound_partial (h : Lawful cmp) (u : α) (a : Arr α) (hs : Sorted cmp (a.items u)) (hz : a.size ≤ 2 ^ 31) (x : α) :
    (∀ i, i < a.size → (lowerBound cmp u a x = i ↔ cmp x (a.item u i) = 0 ∧ ∀ j, j < i → cmp x (a.item u j) ≠ 0)) ∧
    (lowerBound cmp u a x = a.size ↔ ∀ y ∈ a.items u, cmp x y ≠ 0) := by
  have hf := C45_find_partial h u a hs hz x
  have hmem : ∀ i, i < a.size → a.item u i ∈ a.items u := fun i hi => List.mem_map.2 ⟨i, by simpa using hi, rfl⟩
  have key : (∃ k, lowerBound cmp u a x = k ∧ k < a.size ∧ cmp x (a.item u k) = 0 ∧ ∀ j, j < k → cmp x (a.item u j) ≠ 0) ∨
      (lowerBound cmp u a x = a.size ∧ ∀ y ∈ a.items u, cmp x y ≠ 0) := by
    unfold lowerBound
    generalize Ord.find cmp u a x = f at *
    rcases hf with ⟨hlt, heq⟩ | ⟨hend, hno⟩
    · left
      simp only [if_neg (show ¬ f ≥ a.size by omega)]
      obtain ⟨b1, b2, b3⟩ := backLoop_spec (cmp := cmp) u a x f
      generalize backLoop cmp u a x f = b at *
      have hbb : cmp (a.item u b) x = 0 := by
        by_cases hbf : b = f
        · rw [hbf]; exact h.zero_swap heq
        · exact b2 b (Nat.le_refl _) (by omega)
      refine ⟨b, rfl, by omega, h.zero_swap hbb, fun j hj hx => ?_⟩
      have h1 := b3 (by omega)
      have h2 : cmp (a.item u (b - 1)) x ≤ 0 :=
        h.trans _ _ _ (sorted_idx' h u hs (show b - 1 ≤ b by omega) (by omega)) (by omega)
      have h3 : cmp x (a.item u (b - 1)) ≤ 0 :=
        h.trans _ _ _ (show cmp x (a.item u j) ≤ 0 by omega) (sorted_idx' h u hs (by omega) (by omega))
      have := h.le_iff x (a.item u (b - 1))
      omega
    · right
      simp only [if_pos (show f ≥ a.size by omega)]
      exact ⟨hend, hno⟩
  rcases key with ⟨k, hk, hkz, hke, hkl⟩ | ⟨hk, hno⟩
  · rw [hk]
    refine ⟨fun i hi => ⟨fun e => by subst e; exact ⟨hke, hkl⟩, fun ⟨e1, e2⟩ => ?_⟩, ⟨fun e => by omega, fun hn => ?_⟩⟩
    · rcases Nat.lt_trichotomy k i with hlt | he | hlt
      · exact absurd hke (e2 k hlt)
      · exact he
      · exact absurd e1 (hkl i hlt)
    · exact absurd hke (hn _ (hmem k hkz))
  · rw [hk]
    exact ⟨fun i hi => ⟨fun e => by omega, fun ⟨e1, _⟩ => absurd e1 (hno _ (hmem i hi))⟩, fun _ => hno, fun _ => rfl⟩

/-- Comparison of naturals. -/
def natCmp (a b : Nat) : Int := (a : Int) - b

theorem natCmp_lawful : Lawful natCmp := ⟨fun a b => by unfold natCmp; omega, fun a b c => by unfold natCmp; omega⟩

example : Sorted natCmp [1, 3, 3, 5] ∧ equalRange natCmp 0 (.arr [1, 3, 3, 5]) 3 = (1, 3) ∧
    equalRange natCmp 0 (.arr [1, 3, 3, 5]) 4 = (4, 4) ∧ lowerBound natCmp 0 (.arr [1, 3, 3, 5]) 3 = 1 ∧
    upperBound natCmp 0 (.arr [1, 3, 3, 5]) 3 = 3 ∧ findValue natCmp 0 (.arr [1, 3, 3, 5]) 5 = 5 := by
  refine ⟨by simp [Sorted, natCmp], ?_⟩
  decide +kernel

/-- `upperBound` is not the first item above the needle when the needle is absent. -/
theorem C45_violation_upperBound : upperBound natCmp 0 (.arr [1, 3]) 2 = 2 ∧ natCmp 2 ((Arr.arr [1, 3]).item 0 1) < 0 := by
  decide +kernel

/-- C45 is false for 2^32 items: an item found in the second half is reported as absent. -/
theorem C45_violation_large (u : α) (a : Arr α) (x : α) (hz : a.size = 2 ^ 32) (hx : cmp x (a.item u (2 ^ 31)) = 0) :
    findValue cmp u a x = u := by
  have hl : Ord.findLoop cmp u a x a.size 0 a.size = some (2 ^ 31) := by
    obtain ⟨n, hn⟩ : ∃ n, a.size = n + 1 := ⟨2 ^ 32 - 1, by omega⟩
    rw [hn, Ord.findLoop, if_pos (by omega)]
    have hm : (0 + (n + 1)) / 2 = 2 ^ 31 := by omega
    simp only [hm]
    rw [if_neg (by omega), if_neg (by omega)]
  have hi : iterAdd 0 ((2 ^ 31 : Nat) : Int) ≥ 2 ^ 32 := by unfold iterAdd wrap32; omega
  unfold findValue Ord.find
  rw [hl]
  rw [if_pos]
  rw [hz]
  exact hi

end Imt.Props
