import Verif.Props.Ordered
/-!
# C46–C48, C77, C78: uniq, set operations, grouping, sorting and merging
-/
namespace Imt.Props
open Imt Imt.VOps Imt.Ord Imt.Spec Imt.ArrB

variable {α : Type} {cmp : α → α → Int}

/-! ## uniq -/

theorem uniqLoop_spec (h : Lawful cmp) : ∀ (l : List α) (p : α), Sorted cmp (p :: l) →
    (∃ r, uniqLoop cmp p l = p :: r) ∧ StrictlySorted cmp (uniqLoop cmp p l) ∧ (uniqLoop cmp p l).Sublist (p :: l) ∧
    ∀ x, (∃ y ∈ uniqLoop cmp p l, cmp x y = 0) ↔ (∃ y ∈ p :: l, cmp x y = 0)
  | [], p, _ => ⟨⟨[], rfl⟩, List.pairwise_singleton _ _, List.Sublist.refl _, fun x => Iff.rfl⟩
  | v :: r, p, hs => by
    have hs' : Sorted cmp (v :: r) := (List.pairwise_cons.1 hs).2
    have hpv : cmp p v ≤ 0 := List.rel_of_pairwise_cons hs List.mem_cons_self
    rw [uniqLoop]
    by_cases hc : cmp p v ≠ 0
    · rw [if_pos hc]
      obtain ⟨⟨r', hr'⟩, h2, h3, h4⟩ := uniqLoop_spec h r v hs'
      refine ⟨⟨_, rfl⟩, ?_, h3.cons_cons p, fun x => ?_⟩
      · refine List.pairwise_cons.2 ⟨fun y hy => ?_, h2⟩
        rw [hr'] at hy h2
        rcases List.mem_cons.1 hy with rfl | hy
        · omega
        · exact h.lt_of_lt_of_le (show cmp p v < 0 by omega) (Int.le_of_lt (List.rel_of_pairwise_cons h2 hy))
      · have := h4 x
        simp only [List.exists_mem_cons_iff] at this ⊢
        rw [this]
    · rw [if_neg hc]
      have hpr : Sorted cmp (p :: r) := by
        refine List.pairwise_cons.2 ⟨fun y hy => List.rel_of_pairwise_cons hs (List.mem_cons_of_mem _ hy), (List.pairwise_cons.1 hs').2⟩
      obtain ⟨h1, h2, h3, h4⟩ := uniqLoop_spec h r p hpr
      refine ⟨h1, h2, h3.trans ((List.sublist_cons_self v r).cons_cons p), fun x => ?_⟩
      rw [h4 x]
      simp only [List.exists_mem_cons_iff]
      have hpv0 : cmp p v = 0 := by omega
      constructor
      · rintro (q | q)
        · exact .inl q
        · exact .inr (.inr q)
      · rintro (q | q | q)
        · exact .inl q
        · exact .inl (h.eq_trans q (h.zero_swap hpv0))
        · exact .inr q

/-- C46: `uniq` of a sorted container takes items of it, in order, exactly one of each equivalence class. -/
theorem C46_uniq (h : Lawful cmp) (u : α) (a : Arr α) (hs : Sorted cmp (a.items u)) :
    StrictlySorted cmp ((uniq cmp u a).items u) ∧ ((uniq cmp u a).items u).Sublist (a.items u) ∧
    ∀ x, (∃ y ∈ (uniq cmp u a).items u, cmp x y = 0) ↔ (∃ y ∈ a.items u, cmp x y = 0) := by
  unfold uniq
  cases hi : a.items u with
  | nil =>
    simp only [hi]
    exact ⟨List.Pairwise.nil, List.Sublist.refl _, fun x => by trivial⟩
  | cons x r =>
    rw [hi] at hs
    obtain ⟨_, h2, h3, h4⟩ := uniqLoop_spec h r x hs
    have hl : (uniqLoop cmp x r).length ≤ a.size := by
      rw [← items_length u a, hi]; exact h3.length_le
    simp only [items_arr, List.take_of_length_le hl]
    exact ⟨h2, h3, h4⟩

example : (uniq natCmp 0 (.arr [1, 1, 2, 3, 3])).items 0 = [1, 2, 3] := by decide +kernel

/-! ## set operations -/

/-- The number of items of a class that the operation should give. -/
def commCount (s : Sides) (n1 n2 : Nat) : Nat :=
  (if s.left then n1 - n2 else 0) + (if s.right then n2 - n1 else 0) + (if s.common then min n1 n2 else 0)

theorem count_emit (b : Bool) (x y : α) (r : List α) :
    count cmp x (emit b y r) = count cmp x r + if b then (if cmp x y = 0 then 1 else 0) else 0 := by
  cases b
  · simp [emit]
  · simp only [emit, if_true]; exact count_cons x y r

theorem count_le_of_lt (h : Lawful cmp) {x y z : α} {l : List α} (hs : Sorted cmp (z :: l)) (hx : cmp x y = 0)
    (hyz : cmp y z < 0) : count cmp x (z :: l) = 0 :=
  count_zero_of_lt h hs (h.lt_of_le_of_lt (by omega) hyz)

theorem commStep_count (h : Lawful cmp) (cf : α → α → α) (hcf : ∀ x y, cmp x y = 0 → cmp (cf x y) y = 0) (s : Sides) (x1 : α)
    (l1 : List α) (hs1 : Sorted cmp (x1 :: l1)) (k : List α → List α)
    (hk : ∀ l2, Sorted cmp l2 → ∀ x, count cmp x (k l2) = commCount s (count cmp x l1) (count cmp x l2)) :
    ∀ l2, Sorted cmp l2 → ∀ x,
      count cmp x (commStep cmp cf s x1 l1 k l2) = commCount s (count cmp x (x1 :: l1)) (count cmp x l2)
  | [], _, x => by
    rw [commStep]
    cases hl : s.left <;> simp [commCount, hl, count_nil]
  | x2 :: l2, hs2, x => by
    have hs2' : Sorted cmp l2 := (List.pairwise_cons.1 hs2).2
    rw [commStep]
    by_cases c1 : cmp x1 x2 < 0
    · rw [if_pos c1, count_emit, hk _ hs2 x, count_cons x x1]
      by_cases hx : cmp x x1 = 0
      · have h0 : count cmp x (x2 :: l2) = 0 := count_le_of_lt h hs2 hx c1
        rw [h0, if_pos hx]
        cases hl : s.left <;> simp [commCount, hl]
      · simp [if_neg hx]
    · rw [if_neg c1]
      by_cases c2 : cmp x1 x2 > 0
      · rw [if_pos c2, count_emit, commStep_count h cf hcf s x1 l1 hs1 k hk l2 hs2' x, count_cons x x2]
        by_cases hx : cmp x x2 = 0
        · have h0 : count cmp x (x1 :: l1) = 0 := count_le_of_lt h hs1 hx ((h.pos_iff _ _).1 c2)
          rw [h0, if_pos hx]
          cases hl : s.right <;> simp [commCount, hl]
        · simp [if_neg hx]
      · rw [if_neg c2, count_emit, hk _ hs2' x, count_cons x x1, count_cons x x2]
        have h12 : cmp x1 x2 = 0 := by omega
        have e1 : cmp x x1 = 0 ↔ cmp x x2 = 0 :=
          ⟨fun e => h.eq_trans e h12, fun e => h.eq_trans e (h.zero_swap h12)⟩
        have e2 : cmp x (cf x1 x2) = 0 ↔ cmp x x2 = 0 :=
          ⟨fun e => h.eq_trans e (hcf _ _ h12), fun e => h.eq_trans e (h.zero_swap (hcf _ _ h12))⟩
        by_cases hx : cmp x x2 = 0
        · rw [if_pos (e2.2 hx), if_pos (e1.2 hx), if_pos hx]
          cases hl : s.left <;> cases hr : s.right <;> cases hc : s.common <;> simp [commCount, hl, hr, hc] <;> omega
        · rw [if_neg (fun e => hx (e2.1 e)), if_neg (fun e => hx (e1.1 e)), if_neg hx]
          simp

theorem commLoop_count (h : Lawful cmp) (cf : α → α → α) (hcf : ∀ x y, cmp x y = 0 → cmp (cf x y) y = 0) (s : Sides) :
    ∀ l1 l2, Sorted cmp l1 → Sorted cmp l2 → ∀ x,
      count cmp x (commLoop cmp cf s l1 l2) = commCount s (count cmp x l1) (count cmp x l2)
  | [], l2, _, _, x => by
    rw [commLoop]
    cases hr : s.right <;> simp [commCount, hr, count_nil]
  | x1 :: l1, l2, hs1, hs2, x => by
    rw [commLoop]
    exact commStep_count h cf hcf s x1 l1 hs1 _
      (fun l2 hs2 x => commLoop_count h cf hcf s l1 l2 (List.pairwise_cons.1 hs1).2 hs2 x) l2 hs2 x

theorem commCount_pos {s : Sides} {n1 n2 : Nat} (h : 0 < commCount s n1 n2) : 0 < n1 ∨ 0 < n2 := by
  by_contra hc
  have h1 : n1 = 0 := by omega
  have h2 : n2 = 0 := by omega
  subst h1 h2
  simp [commCount] at h

theorem emit_sorted {b : Bool} {y : α} {r : List α} (h1 : ∀ z ∈ r, cmp y z ≤ 0) (h2 : Sorted cmp r) :
    Sorted cmp (emit b y r) := by
  cases b
  · exact h2
  · exact List.pairwise_cons.2 ⟨h1, h2⟩

/-- Lower bound of the result, from the counts. -/
theorem bound_of_count (h : Lawful cmp) {s : Sides} {y : α} {r l1 l2 : List α}
    (hc : ∀ x, count cmp x r = commCount s (count cmp x l1) (count cmp x l2))
    (b1 : ∀ z ∈ l1, cmp y z ≤ 0) (b2 : ∀ z ∈ l2, cmp y z ≤ 0) : ∀ z ∈ r, cmp y z ≤ 0 := by
  intro z hz
  have : 0 < count cmp z r := (count_pos_iff z r).2 ⟨z, hz, h.refl z⟩
  rw [hc] at this
  rcases commCount_pos this with q | q
  · obtain ⟨w, hw, e⟩ := (count_pos_iff _ _).1 q
    exact h.trans _ _ _ (b1 w hw) (by have := h.zero_swap e; omega)
  · obtain ⟨w, hw, e⟩ := (count_pos_iff _ _).1 q
    exact h.trans _ _ _ (b2 w hw) (by have := h.zero_swap e; omega)

theorem sorted_bound (h : Lawful cmp) {x y : α} {l : List α} (hs : Sorted cmp (x :: l)) (hy : cmp y x ≤ 0) :
    ∀ z ∈ x :: l, cmp y z ≤ 0 := by
  intro z hz
  rcases List.mem_cons.1 hz with rfl | hz
  · exact hy
  · exact h.trans _ _ _ hy (List.rel_of_pairwise_cons hs hz)

theorem commStep_sorted (h : Lawful cmp) (cf : α → α → α) (hcf : ∀ x y, cmp x y = 0 → cmp (cf x y) y = 0) (s : Sides) (x1 : α)
    (l1 : List α) (hs1 : Sorted cmp (x1 :: l1)) (k : List α → List α)
    (hk : ∀ l2, Sorted cmp l2 → ∀ x, count cmp x (k l2) = commCount s (count cmp x l1) (count cmp x l2))
    (hk2 : ∀ l2, Sorted cmp l2 → Sorted cmp (k l2)) : ∀ l2, Sorted cmp l2 → Sorted cmp (commStep cmp cf s x1 l1 k l2)
  | [], _ => by
    rw [commStep]
    split
    · exact hs1
    · exact List.Pairwise.nil
  | x2 :: l2, hs2 => by
    have hs2' : Sorted cmp l2 := (List.pairwise_cons.1 hs2).2
    have b11 : ∀ z ∈ l1, cmp x1 z ≤ 0 := fun z hz => List.rel_of_pairwise_cons hs1 hz
    have b22 : ∀ z ∈ l2, cmp x2 z ≤ 0 := fun z hz => List.rel_of_pairwise_cons hs2 hz
    rw [commStep]
    by_cases c1 : cmp x1 x2 < 0
    · rw [if_pos c1]
      exact emit_sorted (bound_of_count h (hk _ hs2) b11 (sorted_bound h hs2 (by omega))) (hk2 _ hs2)
    · rw [if_neg c1]
      by_cases c2 : cmp x1 x2 > 0
      · rw [if_pos c2]
        have c3 := (h.pos_iff _ _).1 c2
        exact emit_sorted (bound_of_count h (commStep_count h cf hcf s x1 l1 hs1 k hk l2 hs2')
          (sorted_bound h hs1 (by omega)) b22) (commStep_sorted h cf hcf s x1 l1 hs1 k hk hk2 l2 hs2')
      · rw [if_neg c2]
        have h12 : cmp x1 x2 = 0 := by omega
        have hc := hcf x1 x2 h12
        have hc1 : cmp (cf x1 x2) x1 = 0 := h.eq_trans hc (h.zero_swap h12)
        exact emit_sorted (bound_of_count h (hk _ hs2') (fun z hz => h.trans _ _ _ (by omega) (b11 z hz))
          (fun z hz => h.trans _ _ _ (by omega) (b22 z hz))) (hk2 _ hs2')

theorem commLoop_sorted (h : Lawful cmp) (cf : α → α → α) (hcf : ∀ x y, cmp x y = 0 → cmp (cf x y) y = 0) (s : Sides) :
    ∀ l1 l2, Sorted cmp l1 → Sorted cmp l2 → Sorted cmp (commLoop cmp cf s l1 l2)
  | [], l2, _, hs2 => by
    rw [commLoop]
    split
    · exact hs2
    · exact List.Pairwise.nil
  | x1 :: l1, l2, hs1, hs2 => by
    rw [commLoop]
    have hs1' := (List.pairwise_cons.1 hs1).2
    exact commStep_sorted h cf hcf s x1 l1 hs1 _ (fun l2 hs2 x => commLoop_count h cf hcf s l1 l2 hs1' hs2 x)
      (fun l2 hs2 => commLoop_sorted h cf hcf s l1 l2 hs1' hs2) l2 hs2

/-- Bound of the number of pushed items; no assumption about the order. -/
theorem emit_length (b : Bool) (y : α) (r : List α) : (emit b y r).length = r.length + if b then 1 else 0 := by
  cases b <;> simp [emit]

theorem estSize_eq (s : Sides) (n1 n2 : Nat) : estSize s n1 n2 =
    if s.left && !s.right then n1 else if s.right && !s.left then n2 else if !s.left && !s.right && s.common then max n1 n2
    else n1 + n2 := by
  obtain ⟨l, r, c⟩ := s
  cases l <;> cases r <;> cases c <;> rfl

/-- A bound that decreases with each step. -/
def cbound (s : Sides) (n1 n2 : Nat) : Nat :=
  if s.left then (if s.right then n1 + n2 else n1) else (if s.right then n2 else min n1 n2)

theorem commStep_length (cf : α → α → α) (s : Sides) (x1 : α) (l1 : List α) (k : List α → List α)
    (hk : ∀ l2, (k l2).length ≤ cbound s l1.length l2.length) :
    ∀ l2, (commStep cmp cf s x1 l1 k l2).length ≤ cbound s (l1.length + 1) l2.length
  | [] => by
    rw [commStep]
    cases hl : s.left <;> cases hr : s.right <;> simp [cbound, hl, hr]
  | x2 :: l2 => by
    have h1 := hk (x2 :: l2)
    have h2 := hk l2
    have h3 := commStep_length cf s x1 l1 k hk l2
    rw [commStep]
    simp only [List.length_cons] at *
    split
    · rw [emit_length]
      revert h1
      cases hl : s.left <;> cases hr : s.right <;> simp [cbound, hl, hr] <;> omega
    · split
      · rw [emit_length]
        revert h3
        cases hl : s.left <;> cases hr : s.right <;> simp [cbound, hl, hr] <;> omega
      · rw [emit_length]
        revert h2
        cases hl : s.left <;> cases hr : s.right <;> cases hc : s.common <;> simp [cbound, hl, hr] <;> omega

theorem commLoop_length (cf : α → α → α) (s : Sides) : ∀ l1 l2 : List α,
    (commLoop cmp cf s l1 l2).length ≤ cbound s l1.length l2.length
  | [], l2 => by
    rw [commLoop]
    cases hl : s.left <;> cases hr : s.right <;> simp [cbound, hl, hr]
  | x1 :: l1, l2 => by
    rw [commLoop]
    exact commStep_length cf s x1 l1 _ (commLoop_length cf s l1) l2

/-- Nothing pushed by `comm` is lost for lack of room, whatever the order of the containers. -/
theorem comm_items (cf : α → α → α) (s : Sides) (u : α) (a b : Arr α) :
    (comm cmp cf s u a b).items u = commLoop cmp cf s (a.items u) (b.items u) := by
  unfold Ord.comm
  rw [items_arr]
  apply List.take_of_length_le
  have := commLoop_length (cmp := cmp) cf s (a.items u) (b.items u)
  rw [items_length, items_length] at this
  refine Nat.le_trans this ?_
  rw [estSize_eq]
  cases hl : s.left <;> cases hr : s.right <;> cases hc : s.common <;> simp [cbound, hl, hr] <;> omega

/-- C47: the set operations on sorted containers, for all choices of sides: the result is sorted and every equivalence
class occurs as often as it should – `n1 - n2` times from the left, `n2 - n1` times from the right and `min n1 n2` common
ones. The conflict function has to stay in the class. -/
theorem C47_comm (h : Lawful cmp) (cf : α → α → α) (hcf : ∀ x y, cmp x y = 0 → cmp (cf x y) y = 0) (s : Sides) (u : α)
    (a b : Arr α) (ha : Sorted cmp (a.items u)) (hb : Sorted cmp (b.items u)) :
    Sorted cmp ((comm cmp cf s u a b).items u) ∧ ∀ x, count cmp x ((comm cmp cf s u a b).items u) =
      commCount s (count cmp x (a.items u)) (count cmp x (b.items u)) := by
  rw [comm_items]
  exact ⟨commLoop_sorted h cf hcf s _ _ ha hb, commLoop_count h cf hcf s _ _ ha hb⟩

/-- C47: `merge` is the union. -/
theorem C47_merge (h : Lawful cmp) (cf : α → α → α) (hcf : ∀ x y, cmp x y = 0 → cmp (cf x y) y = 0) (u : α)
    (a b : Arr α) (ha : Sorted cmp (a.items u)) (hb : Sorted cmp (b.items u)) (x : α) :
    count cmp x ((Ord.merge cmp cf u a b).items u) = max (count cmp x (a.items u)) (count cmp x (b.items u)) := by
  rw [Ord.merge, (C47_comm h cf hcf _ u a b ha hb).2 x]
  simp [commCount]; omega

/-- C47: `intersection`. -/
theorem C47_intersection (h : Lawful cmp) (cf : α → α → α) (hcf : ∀ x y, cmp x y = 0 → cmp (cf x y) y = 0) (u : α)
    (a b : Arr α) (ha : Sorted cmp (a.items u)) (hb : Sorted cmp (b.items u)) (x : α) :
    count cmp x ((intersection cmp cf u a b).items u) = min (count cmp x (a.items u)) (count cmp x (b.items u)) := by
  rw [intersection, (C47_comm h cf hcf _ u a b ha hb).2 x]
  simp [commCount]

/-- C47: `complement`. -/
theorem C47_complement (h : Lawful cmp) (u : α) (a b : Arr α) (ha : Sorted cmp (a.items u)) (hb : Sorted cmp (b.items u)) (x : α) :
    count cmp x ((complement cmp u a b).items u) = count cmp x (a.items u) - count cmp x (b.items u) := by
  rw [complement, (C47_comm h _ (fun _ y _ => h.refl y) _ u a b ha hb).2 x]
  simp [commCount]

/-- C47: `symdiff`. -/
theorem C47_symdiff (h : Lawful cmp) (u : α) (a b : Arr α) (ha : Sorted cmp (a.items u)) (hb : Sorted cmp (b.items u)) (x : α) :
    count cmp x ((symdiff cmp u a b).items u) = (count cmp x (a.items u) - count cmp x (b.items u)) +
      (count cmp x (b.items u) - count cmp x (a.items u)) := by
  rw [symdiff, (C47_comm h _ (fun _ y _ => h.refl y) _ u a b ha hb).2 x]
  simp [commCount]

theorem commStep_left (cf : α → α → α) (x1 : α) (l1 : List α) (k : List α → List α) (hk : ∀ l2, (k l2).Sublist l1) :
    ∀ l2, (commStep cmp cf ⟨true, false, false⟩ x1 l1 k l2).Sublist (x1 :: l1)
  | [] => List.Sublist.refl _
  | x2 :: l2 => by
    rw [commStep]
    split
    · exact (hk _).cons_cons x1
    · split
      · exact commStep_left cf x1 l1 k hk l2
      · exact (hk _).trans (List.sublist_cons_self _ _)

theorem commLoop_left (cf : α → α → α) : ∀ l1 l2 : List α, (commLoop cmp cf ⟨true, false, false⟩ l1 l2).Sublist l1
  | [], l2 => List.Sublist.refl _
  | x1 :: l1, l2 => commStep_left cf x1 l1 _ (commLoop_left cf l1) l2

/-- C47: `complement` takes items of the first container, in order (whatever the order of the containers). -/
theorem C47_complement_items (u : α) (a b : Arr α) : ((complement cmp u a b).items u).Sublist (a.items u) := by
  rw [complement, comm_items]
  exact commLoop_left _ _ _

theorem commStep_common (x1 : α) (l1 : List α) (k : List α → List α) (hk : ∀ l2, (k l2).Sublist l2) :
    ∀ l2, (commStep cmp (fun _ y => y) ⟨false, false, true⟩ x1 l1 k l2).Sublist l2
  | [] => List.Sublist.refl _
  | x2 :: l2 => by
    rw [commStep]
    split
    · exact hk _
    · split
      · exact (commStep_common x1 l1 k hk l2).trans (List.sublist_cons_self _ _)
      · exact (hk l2).cons_cons x2

theorem commLoop_common : ∀ l1 l2 : List α, (commLoop cmp (fun _ y => y) ⟨false, false, true⟩ l1 l2).Sublist l2
  | [], l2 => List.nil_sublist _
  | x1 :: l1, l2 => commStep_common x1 l1 _ (commLoop_common l1) l2

/-- C47: with the default conflict function `intersection` takes items of the second container. -/
theorem C47_intersection_items (u : α) (a b : Arr α) :
    ((intersection cmp (fun _ y => y) u a b).items u).Sublist (b.items u) := by
  rw [intersection, comm_items]
  exact commLoop_common _ _

example : (Ord.merge natCmp (fun _ y => y) 0 (.arr [1, 2, 2, 4]) (.arr [2, 3])).items 0 = [1, 2, 2, 3, 4] ∧
    (complement natCmp 0 (.arr [1, 2, 4]) (.arr [2, 3])).items 0 = [1, 4] ∧
    (intersection natCmp (fun _ y => y) 0 (.arr [1, 2, 4]) (.arr [2, 3])).items 0 = [2] ∧
    (symdiff natCmp 0 (.arr [1, 2, 4]) (.arr [2, 3])).items 0 = [1, 3, 4] := by decide +kernel

/-! ## sorting -/

theorem insertItem_perm (x : α) : ∀ l : List α, (insertItem cmp x l).Perm (x :: l)
  | [] => List.Perm.refl _
  | y :: r => by
    rw [insertItem]
    split
    · exact ((insertItem_perm x r).cons y).trans (List.Perm.swap x y r)
    · exact List.Perm.refl _

theorem insertItem_sorted (h : Lawful cmp) (x : α) : ∀ l : List α, Sorted cmp l → Sorted cmp (insertItem cmp x l)
  | [], _ => List.pairwise_singleton _ _
  | y :: r, hs => by
    rw [insertItem]
    split
    · rename_i hc
      refine List.pairwise_cons.2 ⟨fun z hz => ?_, insertItem_sorted h x r (List.pairwise_cons.1 hs).2⟩
      rcases List.mem_cons.1 ((insertItem_perm x r).mem_iff.1 hz) with rfl | hz
      · omega
      · exact List.rel_of_pairwise_cons hs hz
    · rename_i hc
      refine List.pairwise_cons.2 ⟨sorted_bound h hs ?_, hs⟩
      have := h.le_iff x y; omega

theorem insertItem_filter (h : Lawful cmp) (z x : α) : ∀ l : List α,
    (insertItem cmp x l).filter (fun y => decide (cmp z y = 0)) = (x :: l).filter (fun y => decide (cmp z y = 0))
  | [] => rfl
  | y :: r => by
    rw [insertItem]
    split
    · rename_i hc
      rw [List.filter_cons, insertItem_filter h z x r]
      by_cases hy : cmp z y = 0
      · have hx : ¬ cmp z x = 0 := fun e => by
          have := h.eq_trans (h.zero_swap hy) e
          omega
        simp [List.filter_cons, hx]
      · simp [List.filter_cons, hy]
    · rfl

/-- C77: `sort` gives the same items, sorted, and keeps the order of equivalent ones. -/
theorem C77_sort (h : Lawful cmp) (u : α) (a : Arr α) :
    ((sort cmp u a).items u).Perm (a.items u) ∧ Sorted cmp ((sort cmp u a).items u) ∧
    ∀ z, ((sort cmp u a).items u).filter (fun y => decide (cmp z y = 0)) = (a.items u).filter (fun y => decide (cmp z y = 0)) := by
  have key : ∀ l : List α, (l.foldr (insertItem cmp) []).Perm l ∧ Sorted cmp (l.foldr (insertItem cmp) []) ∧
      ∀ z, (l.foldr (insertItem cmp) []).filter (fun y => decide (cmp z y = 0)) = l.filter (fun y => decide (cmp z y = 0)) := by
    intro l
    induction l with
    | nil => exact ⟨List.Perm.refl _, List.Pairwise.nil, fun _ => rfl⟩
    | cons x l ih =>
      obtain ⟨i1, i2, i3⟩ := ih
      refine ⟨(insertItem_perm x _).trans (i1.cons x), insertItem_sorted h x _ i2, fun z => ?_⟩
      rw [List.foldr_cons, insertItem_filter h z x, List.filter_cons, i3 z, List.filter_cons]
  unfold Ord.sort
  by_cases hz : a.size = 0
  · rw [if_pos hz, items_arr]
    have : a.items u = [] := List.length_eq_zero_iff.mp (by rw [items_length]; exact hz)
    rw [this]
    exact key []
  · rw [if_neg hz, items_arr]
    exact key _

example : (sort (fun (a b : Nat × Nat) => natCmp a.1 b.1) (0, 0) (.arr [(3, 0), (1, 1), (3, 2), (1, 3)])).items (0, 0) =
    [(1, 1), (1, 3), (3, 0), (3, 2)] := by decide +kernel

/-! ## grouping -/

/-- What splitting by a comparison means: consecutive non-empty groups, the items of a group are equal to its first one,
and the first one of the next group is not. -/
inductive Groups (cmp : α → α → Int) : List α → List (List α) → Prop
  | one (x : α) (g : List α) (hg : ∀ y ∈ g, cmp x y = 0) : Groups cmp (x :: g) [x :: g]
  | cons (x : α) (g : List α) (hg : ∀ y ∈ g, cmp x y = 0) (y : α) (l : List α) (gs : List (List α)) (hy : cmp x y ≠ 0)
      (h : Groups cmp (y :: l) gs) : Groups cmp (x :: g ++ y :: l) ((x :: g) :: gs)

theorem Groups.flatten {l : List α} {gs : List (List α)} (h : Groups cmp l gs) : gs.flatten = l := by
  induction h with
  | one x g hg => simp
  | cons x g hg y l gs hy _ ih => simp [ih]

theorem Groups.nonempty {l : List α} {gs : List (List α)} (h : Groups cmp l gs) : ∀ g ∈ gs, g ≠ [] := by
  induction h with
  | one x g hg => simp
  | cons x g hg y l gs hy _ ih =>
    intro g' hg'
    rcases List.mem_cons.1 hg' with rfl | h'
    · simp
    · exact ih g' h'

theorem foldl_groups (isDef : α → Bool) (u : α) : ∀ (r : List α) (x : α) (g : List α) (out : List (List α)),
    (∀ v ∈ r, isDef v = true) → isDef x = true → (∀ v ∈ g, isDef v = true) → (∀ y ∈ g, cmp x y = 0) →
    ∀ (o : AB (List α)) (b : AB α), Rep o [] out → Rep b [] (x :: g) →
    ∃ o' gs, splitLoop cmp isDef u o b x r = .ok o' ∧ Rep o' [] (out ++ gs) ∧ Groups cmp (x :: g ++ r) gs
  | [], x, g, out, _, hx, hg, he, o, b, ho, hb => by
    have hc := rep_commit_def hb isDef u (by simp)
    rw [List.filter_eq_self.mpr (by
      intro v hv
      rcases List.mem_cons.1 hv with rfl | hv
      · exact hx
      · exact hg v hv)] at hc
    refine ⟨ArrB.add o (x :: g), [x :: g], ?_, rep_add ho _, ?_⟩
    · rw [splitLoop, hc]; rfl
    · simpa using Groups.one x g he
  | v :: r, x, g, out, hr, hx, hg, he, o, b, ho, hb => by
    have hv : isDef v = true := hr v List.mem_cons_self
    have hr' : ∀ w ∈ r, isDef w = true := fun w hw => hr w (List.mem_cons_of_mem _ hw)
    rw [splitLoop, if_neg (by simp [hx])]
    by_cases hc : cmp x v ≠ 0
    · rw [if_pos hc]
      have hcm := rep_commit_def hb isDef u (by simp)
      rw [List.filter_eq_self.mpr (by
        intro v hv
        rcases List.mem_cons.1 hv with rfl | hv
        · exact hx
        · exact hg v hv)] at hcm
      rw [hcm]
      have hb2 : Rep (ArrB.add (ArrB.clear b) v) [] [v] := by simpa using rep_add (rep_clear hb) v
      obtain ⟨o', gs, h1, h2, h3⟩ := foldl_groups isDef u r v [] (out ++ [x :: g]) hr' hv (by simp) (by simp) _ _
        (rep_add ho (x :: g)) hb2
      refine ⟨o', (x :: g) :: gs, h1, by simpa using h2, ?_⟩
      exact Groups.cons x g he v r gs hc h3
    · rw [if_neg hc]
      have hb2 : Rep (ArrB.add b v) [] (x :: (g ++ [v])) := by simpa using rep_add hb v
      obtain ⟨o', gs, h1, h2, h3⟩ := foldl_groups isDef u r x (g ++ [v]) out hr' hx (by
        intro w hw
        rcases List.mem_append.1 hw with q | q
        · exact hg w q
        · rw [List.mem_singleton] at q; subst q; exact hv) (by
        intro w hw
        rcases List.mem_append.1 hw with q | q
        · exact he w q
        · rw [List.mem_singleton] at q; subst q; omega) _ _ ho hb2
      exact ⟨o', gs, h1, h2, by simpa using h3⟩

/-- C48 (partial): splitting a non-empty array without undefined items gives the consecutive groups. Missing: the empty
array, which gives one empty group (`C48_violation_empty`), and undefined items, which are lost
(`C48_violation_undefined`). -/
theorem C48_split_partial (isDef : α → Bool) (u : α) (hu : isDef u = false) (l : List α) (hl : l ≠ [])
    (hd : ∀ v ∈ l, isDef v = true) : ∃ gs, split cmp isDef u l = .ok gs ∧ Groups cmp l gs := by
  cases l with
  | nil => exact absurd rfl hl
  | cons x r =>
    have hx : isDef x = true := hd x List.mem_cons_self
    obtain ⟨o', gs, h1, h2, h3⟩ := foldl_groups (cmp := cmp) isDef u r x [] [] (fun v hv => hd v (List.mem_cons_of_mem _ hv)) hx
      (by simp) (by simp) _ _ rep_new (rep_add rep_new x)
    refine ⟨gs, ?_, by simpa using h3⟩
    unfold split
    rw [splitLoop, if_pos (by simp [hu]), h1]
    simp only [Res.bind_ok]
    rw [rep_commit_def h2 (fun _ => true) [] (by simp)]
    simp

/-- C48: in particular nothing is lost and no group is empty. -/
theorem C48_split_flatten_partial (isDef : α → Bool) (u : α) (hu : isDef u = false) (l : List α) (hl : l ≠ [])
    (hd : ∀ v ∈ l, isDef v = true) : ∃ gs, split cmp isDef u l = .ok gs ∧ gs.flatten = l ∧ ∀ g ∈ gs, g ≠ [] := by
  obtain ⟨gs, h1, h2⟩ := C48_split_partial (cmp := cmp) isDef u hu l hl hd
  exact ⟨gs, h1, h2.flatten, h2.nonempty⟩

/-- C48: `group` reduces every group, starting from `init` each time. -/
theorem C48_group_partial {β : Type} (f : β → α → β) (val : β → α) (init : β) (isDef : α → Bool) (u : α) (hu : isDef u = false)
    (l : List α) (hl : l ≠ []) (hd : ∀ v ∈ l, isDef v = true) :
    ∃ gs, Groups cmp l gs ∧ groupBy cmp f val init isDef u l = .ok ((gs.map (fun g => val (g.foldl f init))).filter isDef) := by
  obtain ⟨gs, h1, h2⟩ := C48_split_partial (cmp := cmp) isDef u hu l hl hd
  refine ⟨gs, h2, ?_⟩
  unfold groupBy
  rw [h1]
  simp only [Res.bind_ok]
  rw [foldl_add_map (fun g : List α => val (g.foldl f init)), commit_new]

/-- Comparison of optional naturals; undefined is never looked at first. -/
def optCmp (a b : Option Nat) : Int := natCmp (a.getD 0) (b.getD 0)

example : split optCmp Option.isSome none [some 1, some 1, some 2] = .ok [[some 1, some 1], [some 2]] := by decide +kernel

/-- C48 is false: the empty array has one group, which is empty. -/
theorem C48_violation_empty : split optCmp Option.isSome none [] = .ok [[]] := by decide +kernel

/-- C48 is false: undefined items are lost and the item after them joins their group. -/
theorem C48_violation_undefined : split optCmp Option.isSome none [some 1, none, some 2] = .ok [[some 1], [some 2]] ∧
    split optCmp Option.isSome none [none, some 2] = .ok [[some 2]] := by decide +kernel

/-- The items in a range. -/
def rangeItems (l : List α) (p : Nat × Nat) : List α := (l.drop p.1).take (p.2 - p.1)

theorem groupLoop_spec (all : List α) : ∀ (r : List α) (x : α) (g : List α) (start pos : Nat), (∀ y ∈ g, cmp x y = 0) →
    pos = start + 1 + g.length → all.drop start = x :: g ++ r →
    Groups cmp (all.drop start) ((groupLoop cmp x start pos r).map (rangeItems all))
  | [], x, g, start, pos, hg, hp, ha => by
    rw [groupLoop, List.map_singleton]
    have : rangeItems all (start, pos) = x :: g := by
      rw [rangeItems, ha, List.append_nil]
      apply List.take_of_length_le
      simp only [List.length_cons]; omega
    rw [this, ha, List.append_nil]
    exact Groups.one x g hg
  | v :: r, x, g, start, pos, hg, hp, ha => by
    rw [groupLoop]
    by_cases hc : cmp x v ≠ 0
    · rw [if_pos hc, List.map_cons]
      have h1 : rangeItems all (start, pos) = x :: g := by
        rw [rangeItems, ha, show pos - start = (x :: g).length by simp only [List.length_cons]; omega]
        exact List.take_left
      have h2 : all.drop pos = v :: r := by
        have : all.drop pos = (all.drop start).drop (x :: g).length := by
          rw [List.drop_drop]; congr 1; simp only [List.length_cons]; omega
        rw [this, ha, List.drop_left]
      rw [h1, ha, ← h2]
      have := groupLoop_spec all r v [] pos (pos + 1) (by simp) (by simp) (by simpa using h2)
      rw [h2] at this ⊢
      exact Groups.cons x g hg v r _ hc this
    · rw [if_neg hc]
      refine groupLoop_spec all r x (g ++ [v]) start (pos + 1) ?_ (by simp; omega) (by simpa using ha)
      intro w hw
      rcases List.mem_append.1 hw with q | q
      · exact hg w q
      · rw [List.mem_singleton] at q; subst q; omega

/-- C48: `Ordered::group` calls the function for exactly the consecutive groups (undefined items included) and collects
the results that are not undefined. -/
theorem C48_ordered_group (fn : List α → α) (isDef : α → Bool) (u : α) (a : Arr α) (h : a.items u ≠ []) :
    ∃ gs, Groups cmp (a.items u) gs ∧ ∃ r, Ord.group cmp fn isDef u a = .ok r ∧ r.items u = (gs.map fn).filter isDef := by
  have hz : a.size ≠ 0 := by
    intro e
    exact h (List.length_eq_zero_iff.mp (by rw [items_length]; exact e))
  refine ⟨(groupRanges cmp (a.items u)).map (rangeItems (a.items u)), ?_, ?_⟩
  · cases hi : a.items u with
    | nil => exact absurd hi h
    | cons x r =>
      have := groupLoop_spec (cmp := cmp) (x :: r) r x [] 0 1 (by simp) (by simp) (by simp)
      simpa [groupRanges] using this
  · unfold Ord.group
    rw [if_neg hz, foldl_add_map (fun p : Nat × Nat => fn (((a.items u).drop p.1).take (p.2 - p.1))), commit_new]
    refine ⟨_, rfl, ?_⟩
    rw [items_arr, List.map_map]
    rfl

example : groupRanges natCmp [1, 1, 2, 3, 3] = [(0, 2), (2, 3), (3, 5)] := by decide +kernel

/-! ## generic merge -/

/-- The left items of the events. -/
def Ord.Ev.l? : Ev α → Option α
  | .left x => some x
  | .right _ => none
  | .both x _ => some x
/-- The right items of the events. -/
def Ord.Ev.r? : Ev α → Option α
  | .left _ => none
  | .right y => some y
  | .both _ y => some y

theorem filterMap_left (l : List α) : (l.map Ev.left).filterMap Ord.Ev.l? = l ∧ (l.map Ev.left).filterMap Ord.Ev.r? = [] := by
  induction l with
  | nil => exact ⟨rfl, rfl⟩
  | cons x l ih =>
    constructor
    · rw [List.map_cons, List.filterMap_cons]; simp [Ord.Ev.l?, ih.1]
    · rw [List.map_cons, List.filterMap_cons]; simp [Ord.Ev.r?, ih.2]

theorem filterMap_right (l : List α) : (l.map Ev.right).filterMap Ord.Ev.l? = [] ∧ (l.map Ev.right).filterMap Ord.Ev.r? = l := by
  induction l with
  | nil => exact ⟨rfl, rfl⟩
  | cons x l ih =>
    constructor
    · rw [List.map_cons, List.filterMap_cons]; simp [Ord.Ev.l?, ih.1]
    · rw [List.map_cons, List.filterMap_cons]; simp [Ord.Ev.r?, ih.2]

theorem mergeStep_items (fn : α → α → Int) (x : α) (l : List α) (k : List α → List (Ev α))
    (hk : ∀ r, (k r).filterMap Ord.Ev.l? = l ∧ (k r).filterMap Ord.Ev.r? = r) : ∀ r,
    (mergeStep fn x l k r).filterMap Ord.Ev.l? = x :: l ∧ (mergeStep fn x l k r).filterMap Ord.Ev.r? = r
  | [] => by rw [mergeStep]; exact filterMap_left (x :: l)
  | y :: r => by
    rw [mergeStep]
    split
    · constructor
      · rw [List.filterMap_cons]; simp [Ord.Ev.l?, (hk _).1]
      · rw [List.filterMap_cons]; simp [Ord.Ev.r?, (hk _).2]
    · split
      · have := mergeStep_items fn x l k hk r
        constructor
        · rw [List.filterMap_cons]; simp [Ord.Ev.l?, this.1]
        · rw [List.filterMap_cons]; simp [Ord.Ev.r?, this.2]
      · constructor
        · rw [List.filterMap_cons]; simp [Ord.Ev.l?, (hk _).1]
        · rw [List.filterMap_cons]; simp [Ord.Ev.r?, (hk _).2]

/-- C78: the generic merge shows every item of both sequences exactly once, in order, for every function. -/
theorem C78_merge_complete (fn : α → α → Int) : ∀ l r : List α,
    (gmerge fn l r).filterMap Ord.Ev.l? = l ∧ (gmerge fn l r).filterMap Ord.Ev.r? = r
  | [], r => by rw [gmerge]; exact filterMap_right r
  | x :: l, r => by
    rw [gmerge]
    exact mergeStep_items fn x l _ (C78_merge_complete fn l) r

/-- How often a pair of the class of `x` is formed. -/
def pairs (cmp : α → α → Int) (x : α) (l : List (Ev α)) : Nat :=
  l.countP (fun e => match e with | .both y _ => decide (cmp x y = 0) | _ => false)

theorem pairs_nil_left (x : α) (l : List α) : pairs cmp x (l.map .left) = 0 := by
  unfold pairs; rw [List.countP_eq_zero]; intro e he
  obtain ⟨y, _, rfl⟩ := List.mem_map.1 he; simp
theorem pairs_nil_right (x : α) (l : List α) : pairs cmp x (l.map .right) = 0 := by
  unfold pairs; rw [List.countP_eq_zero]; intro e he
  obtain ⟨y, _, rfl⟩ := List.mem_map.1 he; simp

theorem mergeStep_pairs (h : Lawful cmp) (x1 : α) (l : List α) (hs1 : Sorted cmp (x1 :: l)) (k : List α → List (Ev α))
    (hk : ∀ r, Sorted cmp r → ∀ x, pairs cmp x (k r) = min (count cmp x l) (count cmp x r)) : ∀ r, Sorted cmp r → ∀ x,
    pairs cmp x (mergeStep cmp x1 l k r) = min (count cmp x (x1 :: l)) (count cmp x r)
  | [], _, x => by rw [mergeStep, pairs_nil_left, count_nil]; simp
  | y :: r, hs2, x => by
    have hs2' : Sorted cmp r := (List.pairwise_cons.1 hs2).2
    rw [mergeStep]
    by_cases c1 : cmp x1 y < 0
    · rw [if_pos c1]
      have e : pairs cmp x (Ev.left x1 :: k (y :: r)) = pairs cmp x (k (y :: r)) := by simp [pairs, List.countP_cons]
      rw [e, hk _ hs2 x, count_cons x x1]
      by_cases hx : cmp x x1 = 0
      · rw [count_le_of_lt h hs2 hx c1]; simp
      · simp [hx]
    · rw [if_neg c1]
      by_cases c2 : cmp x1 y > 0
      · rw [if_pos c2]
        have e : pairs cmp x (Ev.right y :: mergeStep cmp x1 l k r) = pairs cmp x (mergeStep cmp x1 l k r) := by
          simp [pairs, List.countP_cons]
        rw [e, mergeStep_pairs h x1 l hs1 k hk r hs2' x, count_cons x y]
        by_cases hx : cmp x y = 0
        · rw [count_le_of_lt h hs1 hx ((h.pos_iff _ _).1 c2)]; simp
        · simp [hx]
      · rw [if_neg c2]
        have e : pairs cmp x (Ev.both x1 y :: k r) = pairs cmp x (k r) + if cmp x x1 = 0 then 1 else 0 := by
          simp [pairs, List.countP_cons]
        rw [e, hk _ hs2' x, count_cons x x1, count_cons x y]
        have h12 : cmp x1 y = 0 := by omega
        by_cases hx : cmp x x1 = 0
        · rw [if_pos hx, if_pos (h.eq_trans hx h12)]; omega
        · rw [if_neg hx, if_neg (fun q => hx (h.eq_trans q (h.zero_swap h12)))]; simp

/-- C78: on sorted sequences as many pairs of a class are formed as possible. -/
theorem C78_merge_pairs (h : Lawful cmp) : ∀ l r : List α, Sorted cmp l → Sorted cmp r → ∀ x,
    pairs cmp x (gmerge cmp l r) = min (count cmp x l) (count cmp x r)
  | [], r, _, _, x => by rw [gmerge, pairs_nil_right, count_nil]; simp
  | y :: l, r, hs1, hs2, x => by
    rw [gmerge]
    exact mergeStep_pairs h y l hs1 _ (fun r hr x => C78_merge_pairs h l r (List.pairwise_cons.1 hs1).2 hr x) r hs2 x

example : gmerge natCmp [1, 3] [2, 3] = [.left 1, .right 2, .both 3 3] := by decide +kernel

end Imt.Props
