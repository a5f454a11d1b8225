import Verif.Model.Iter
/-!
# C141: iteration and `walk` visit everything once

Loops over the iterators of a value, arithmetic of iterators, and the recursive `walk`.
-/
namespace Imt.Props
open Imt Imt.Iter

/-! ## Iterators -/

/-- C141: comparison of iterators is an equivalence. -/
theorem C141_equivalence {α : Type} (hp : Heap α) :
    (∀ a : It, a.eq hp a = true) ∧ (∀ a b : It, a.eq hp b = true → b.eq hp a = true) ∧
    (∀ a b c : It, a.eq hp b = true → b.eq hp c = true → a.eq hp c = true) := by
  refine ⟨?_, ?_, ?_⟩
  · intro a; simp [It.eq]
  · intro a b
    simp only [It.eq, Bool.or_eq_true, Bool.and_eq_true, beq_iff_eq]
    rintro (⟨h1, h2⟩ | ⟨h1, h2⟩)
    · exact .inl ⟨h2, h1⟩
    · exact .inr ⟨h1.symm, h2.symm⟩
  · intro a b c
    obtain ⟨av, ai⟩ := a
    obtain ⟨bv, bi⟩ := b
    obtain ⟨cv, ci⟩ := c
    simp only [It.eq, It.atEnd, Bool.or_eq_true, Bool.and_eq_true, beq_iff_eq, decide_eq_true_eq]
    rintro (⟨h1, h2⟩ | ⟨h1, h2⟩) (⟨h3, h4⟩ | ⟨h3, h4⟩)
    · exact .inl ⟨h3, h2⟩
    · subst h3 h4; exact .inl ⟨h1, h2⟩
    · subst h1 h2; exact .inl ⟨h3, h4⟩
    · subst h1 h2 h3 h4; exact .inr ⟨rfl, rfl⟩

example : (It.eq (fun v => if v = 1 then [10, 20] else []) ⟨1, 2⟩ ⟨7, 0⟩) = true := by decide

theorem it_drop {α : Type} (l : List α) (i : Nat) (h : i < l.length) : l.drop i = l[i] :: l.drop (i + 1) := by
  simp

theorem it_forLoop {α : Type} (hp : Heap α) (v : Nat) (h32 : (hp v).length ≤ 2 ^ 32) :
    ∀ (n i fuel : Nat), (hp v).length - i = n → i ≤ (hp v).length → n < fuel →
      forLoop hp fuel ⟨v, i⟩ (endOf hp v) = some (((hp v).drop i).map some) := by
  intro n
  induction n with
  | zero =>
    intro i fuel h1 h2 h3
    obtain ⟨m, rfl⟩ : ∃ m, fuel = m + 1 := ⟨fuel - 1, by omega⟩
    have : i = (hp v).length := by omega
    subst this
    simp [forLoop, It.eq, It.atEnd, endOf]
  | succ n ih =>
    intro i fuel h1 h2 h3
    obtain ⟨m, rfl⟩ : ∃ m, fuel = m + 1 := ⟨fuel - 1, by omega⟩
    have hi : i < (hp v).length := by omega
    have hne : It.eq hp ⟨v, i⟩ (endOf hp v) = false := by
      simp [It.eq, It.atEnd, endOf]; omega
    have hinc : It.inc ⟨v, i⟩ = ⟨v, i + 1⟩ := by
      simp only [It.inc]
      rw [Nat.mod_eq_of_lt (by omega)]
    simp only [forLoop, hne, hinc]
    rw [ih (i + 1) m (by omega) (by omega) (by omega)]
    simp only [Bool.false_eq_true, if_false, Option.map_some, It.deref, itemAt, hi, if_true]
    rw [Nat.mod_eq_of_lt (by omega), it_drop _ i hi, List.map_cons, List.getElem?_eq_getElem hi]

/-- C141 (partial: containers of at most 2^32 items): a loop over a value gives its items, each once, in the order of
storage, and ends. -/
theorem C141_for_partial {α : Type} (hp : Heap α) (v : Nat) (h32 : (hp v).length ≤ 2 ^ 32) (fuel : Nat)
    (hf : (hp v).length < fuel) : forLoop hp fuel (beginOf v) (endOf hp v) = some ((hp v).map some) := by
  have := it_forLoop hp v h32 _ 0 fuel rfl (Nat.zero_le _) (by omega)
  simpa [beginOf] using this

example : forLoop (fun v => if v = 1 then [10, 20, 30] else []) 4 (beginOf 1) (endOf (fun v => if v = 1 then [10, 20, 30] else []) 1)
    = some [some 10, some 20, some 30] := by decide
example : ((fun v : Nat => if v = 1 then [10, 20, 30] else []) 1).length ≤ 2 ^ 32 := by decide

theorem it_backLoop {α : Type} (hp : Heap α) (v : Nat) (h32 : (hp v).length ≤ 2 ^ 32) :
    ∀ (i fuel : Nat), i ≤ (hp v).length → i < fuel → 
      backLoop hp fuel ⟨v, i⟩ (beginOf v) = some ((((hp v).take i).map some).reverse) := by
  intro i
  induction i with
  | zero =>
    intro fuel h2 h3
    obtain ⟨m, rfl⟩ : ∃ m, fuel = m + 1 := ⟨fuel - 1, by omega⟩
    simp [backLoop, It.eq, beginOf]
  | succ i ih =>
    intro fuel h2 h3
    obtain ⟨m, rfl⟩ : ∃ m, fuel = m + 1 := ⟨fuel - 1, by omega⟩
    have hne : It.eq hp ⟨v, i + 1⟩ (beginOf v) = false := by
      simp only [It.eq, It.atEnd, beginOf, Nat.le_zero]
      have : ¬ (hp v).length = 0 := by omega
      simp [this]
    have hdec : It.dec ⟨v, i + 1⟩ = ⟨v, i⟩ := by
      simp only [It.dec, It.mk.injEq, true_and]
      omega
    simp only [backLoop, hne, hdec]
    rw [ih m (by omega) (by omega)]
    have hi : i < (hp v).length := by omega
    simp only [Bool.false_eq_true, if_false, Option.map_some, It.deref, itemAt, hi, if_true]
    rw [Nat.mod_eq_of_lt (by omega), List.take_succ_eq_append_getElem hi, List.map_append, List.reverse_append,
      List.getElem?_eq_getElem hi]
    rfl

/-- C141 (partial: containers of at most 2^32 items): a loop backwards gives the items in the opposite order. -/
theorem C141_back_partial {α : Type} (hp : Heap α) (v : Nat) (h32 : (hp v).length ≤ 2 ^ 32) (fuel : Nat)
    (hf : (hp v).length < fuel) : backLoop hp fuel (endOf hp v) (beginOf v) = some (((hp v).map some).reverse) := by
  have := it_backLoop hp v h32 (hp v).length fuel (Nat.le_refl _) hf
  simpa [endOf] using this

example : backLoop (fun v => if v = 1 then [10, 20, 30] else []) 4 (endOf (fun v => if v = 1 then [10, 20, 30] else []) 1) (beginOf 1)
    = some [some 30, some 20, some 10] := by decide

/-- C141 (partial: distances of 32 bits): arithmetic of iterators is that of positions – moving by `n` inside the container
gives the position `n` further, the difference of the two is `n`, and moving back returns. -/
theorem C141_arith_partial (v i : Nat) (n : Int) (hn : -2 ^ 31 ≤ n ∧ n < 2 ^ 31) (h0 : 0 ≤ i + n) (h1 : (i : Int) + n < 2 ^ 63)
    (hi : i < 2 ^ 63) :
    ((It.add ⟨v, i⟩ n).index : Int) = i + n ∧ (It.add ⟨v, i⟩ n).diff ⟨v, i⟩ = n ∧ (It.add ⟨v, i⟩ n).sub n = ⟨v, i⟩ := by
  have ht : toInt32 n = n := by simp only [toInt32]; omega
  have ha : ((It.add ⟨v, i⟩ n).index : Int) = i + n := by
    simp only [It.add, ht]
    omega
  refine ⟨ha, ?_, ?_⟩
  · simp only [It.diff, ha]; omega
  · have : (It.add ⟨v, i⟩ n).v = v := rfl
    simp only [It.sub, ha, ht, this, It.mk.injEq, true_and]
    omega

example : It.add ⟨1, 5⟩ (-3) = ⟨1, 2⟩ ∧ (It.add ⟨1, 5⟩ (-3)).diff ⟨1, 5⟩ = -3 := by decide

/-- C141, differences of any two iterators: a number of 64 bits with a sign, equal to the difference of the indexes up to
a multiple of 2^64; so adding it to the second index gives the first. -/
theorem C141_difference (a b : It) (ha : a.index < 2 ^ 64) :
    -2 ^ 63 ≤ a.diff b ∧ a.diff b < 2 ^ 63 ∧ ((b.index : Int) + a.diff b) % 2 ^ 64 = a.index := by
  simp only [It.diff]
  omega

example : It.diff ⟨1, 0⟩ ⟨1, 2 ^ 64 - 1⟩ = 1 := by decide

/-- Moving back is moving forward by the opposite number, also over the ends of the index, which keeps its 64 bits. -/
theorem C141_opposite (it : It) (n : Int) (hn : -2 ^ 31 < n ∧ n < 2 ^ 31) :
    it.sub n = it.add (-n) ∧ it.add n = it.sub (-n) ∧ (it.sub n).index < 2 ^ 64 ∧ (it.add n).index < 2 ^ 64 := by
  have h1 : toInt32 n = n := by simp only [toInt32]; omega
  have h2 : toInt32 (-n) = -n := by simp only [toInt32]; omega
  simp only [It.sub, It.add, h1, h2, It.mk.injEq, true_and]
  omega

example : It.sub ⟨1, 2⟩ 5 = ⟨1, 2 ^ 64 - 3⟩ := by decide

/-- C141 is violated by containers of more than 2^32 items: `itemAtIndex` compares the whole index with the size, but
`Container::operator[]` takes an `unsigned int` (container.h:102-110), so items from 2^32 on cannot be read – the first items are
returned in their place. -/
theorem C141_violation_index {α : Type} (l : List α) (i : Nat) (h1 : 2 ^ 32 ≤ i) (h2 : i < l.length) :
    itemAt l i = l[i % 2 ^ 32]? ∧ itemAt l i = itemAt l (i % 2 ^ 32) := by
  have : i % 2 ^ 32 < l.length := by omega
  refine ⟨by simp [itemAt, h2], ?_⟩
  simp only [itemAt, h2, this, if_true, Nat.mod_mod]

/-- With distinct items the result is wrong: the loop over 0, 1, 2, ..., 2^32 sees 0 in the last place. -/
theorem C141_violation_index_list (n : Nat) (h : 2 ^ 32 < n) :
    itemAt (List.range n) (2 ^ 32) = some 0 ∧ (List.range n)[2 ^ 32]? = some (2 ^ 32) := by
  have h0 : (2 ^ 32 : Nat) < (List.range n).length := by simpa using h
  refine ⟨?_, ?_⟩
  · rw [itemAt, if_pos h0, Nat.mod_self, List.getElem?_range (by omega)]
  · rw [List.getElem?_range h]

example : (2 : Nat) ^ 32 < 2 ^ 32 + 1 := by omega

/-- C141 is violated for long steps: the type of distances is `Int` (64 bits, value.h:1224), but moving takes an `int`
(value.h:1214-1217), so an algorithm which moves an iterator by 2^31 goes backwards, past the begin. -/
theorem C141_violation_far : It.add ⟨1, 0⟩ (2 ^ 31) = ⟨1, 2 ^ 64 - 2 ^ 31⟩ := by decide

/-- C141 is violated by iterators past the end: they are equal to the end, but moved back by one they are not equal to the
last item, and the difference of the two equal iterators is not zero. -/
theorem C141_violation_past :
    let hp : Heap Nat := fun v => if v = 1 then [10, 20] else []
    It.eq hp ⟨1, 3⟩ (endOf hp 1) = true ∧ It.eq hp (It.dec ⟨1, 3⟩) (endOf hp 1).dec = false ∧
    It.diff ⟨1, 3⟩ (endOf hp 1) = 1 := by decide

/-! ## `walk` -/

/-- An address in a tree: the indexes on the way from the root. -/
abbrev WPath := List Nat

/-- The items of a value with their keys. -/
def wkids : JV → List Node
  | .arr l => l.map fun v => (none, v)
  | .obj l => l.map fun m => (some m.1, m.2)
  | _ => []

/-- The node at an address. -/
def wnode (n : Node) : WPath → Option Node
  | [] => some n
  | i :: p => match (wkids n.2)[i]? with
    | some c => wnode c p
    | none => none

mutual
/-- The addresses of all nodes, each node before those below it, items in their order. -/
def wpaths : JV → List WPath
  | .arr l => [] :: wpathsL 0 l
  | .obj l => [] :: wpathsM 0 l
  | _ => [[]]
def wpathsL (i : Nat) : List JV → List WPath
  | [] => []
  | v :: r => (wpaths v).map (i :: ·) ++ wpathsL (i + 1) r
def wpathsM (i : Nat) : List (Bytes × JV) → List WPath
  | [] => []
  | m :: r => (wpaths m.2).map (i :: ·) ++ wpathsM (i + 1) r
end

/-- One address of the scan: skipped when below (or at) a refused one, otherwise `fn` is called, and a refusal is noted. -/
def wscan {σ : Type} (fn : σ → Node → Bool × σ) (g : WPath → Option Node) (st : σ × List WPath) (p : WPath) : σ × List WPath :=
  if st.2.any (·.isPrefixOf p) then st
  else match g p with
    | none => st
    | some n => ((fn st.1 n).2, if (fn st.1 n).1 then st.2 else p :: st.2)

theorem wscan_skip {σ : Type} (fn : σ → Node → Bool × σ) (g : WPath → Option Node) (s : σ) (R : List WPath) (ps : List WPath)
    (h : ∀ p ∈ ps, ∃ r ∈ R, r <+: p) : ps.foldl (wscan fn g) (s, R) = (s, R) := by
  induction ps with
  | nil => rfl
  | cons p r ih =>
    have : wscan fn g (s, R) p = (s, R) := by
      obtain ⟨q, hq, hp⟩ := h p List.mem_cons_self
      unfold wscan
      rw [if_pos]
      simp only [List.any_eq_true]
      exact ⟨q, hq, List.isPrefixOf_iff_prefix.2 hp⟩
    rw [List.foldl_cons, this]
    exact ih fun p hp => h p (List.mem_cons_of_mem _ hp)

theorem wscan_call {σ : Type} (fn : σ → Node → Bool × σ) (g : WPath → Option Node) (s : σ) (R : List WPath) (p : WPath) (n : Node)
    (hg : g p = some n) (h : ∀ r ∈ R, ¬ r <+: p) :
    wscan fn g (s, R) p = ((fn s n).2, if (fn s n).1 then R else p :: R) := by
  unfold wscan
  rw [if_neg, hg]
  simp only [List.any_eq_true, not_exists, not_and]
  exact fun r hr hp => h r hr (List.isPrefixOf_iff_prefix.1 hp)

theorem wpre_down (r q : WPath) (j : Nat) (h1 : ¬ r <+: q) (h2 : ¬ q <+: r) : ¬ r <+: q ++ [j] ∧ ¬ q ++ [j] <+: r := by
  refine ⟨?_, ?_⟩
  · intro h
    rcases List.prefix_concat_iff.1 h with h | h
    · exact h2 (h ▸ List.prefix_append _ _)
    · exact h1 h
  · intro h
    exact h2 ((List.prefix_append q [j]).trans h)

theorem wpre_side (r q : WPath) (i j : Nat) (hij : i ≠ j) (h : q ++ [i] <+: r) : ¬ r <+: q ++ [j] ∧ ¬ q ++ [j] <+: r := by
  obtain ⟨t, rfl⟩ := h
  refine ⟨?_, ?_⟩
  · rw [List.append_assoc, List.prefix_append_right_inj]
    simp [hij]
  · rw [List.append_assoc, List.prefix_append_right_inj]
    simp [Ne.symm hij]

mutual
theorem wscan_walk {σ : Type} (fn : σ → Node → Bool × σ) (v : JV) (k : Option Bytes) (q : WPath) (s : σ) (R : List WPath)
    (g : WPath → Option Node) (hg : ∀ p, g (q ++ p) = wnode (k, v) p) (hR : ∀ r ∈ R, ¬ r <+: q ∧ ¬ q <+: r) :
    ∃ R', (∀ r ∈ R', r ∈ R ∨ q <+: r) ∧
      ((wpaths v).map (q ++ ·)).foldl (wscan fn g) (s, R) = (walk fn s k v, R') := by
  have h0 : wscan fn g (s, R) q = ((fn s (k, v)).2, if (fn s (k, v)).1 then R else q :: R) :=
    wscan_call fn g s R q (k, v) (by simpa [wnode] using hg []) fun r hr => (hR r hr).1
  have leaf : ∃ R', (∀ r ∈ R', r ∈ R ∨ q <+: r) ∧ wscan fn g (s, R) q = ((fn s (k, v)).2, R') := by
    refine ⟨_, ?_, h0⟩
    intro r hr
    split at hr
    · exact .inl hr
    · rcases List.mem_cons.1 hr with h | h
      · exact .inr (h ▸ List.prefix_rfl)
      · exact .inl h
  cases v with
  | arr l =>
    simp only [wpaths, List.map_cons, List.append_nil, List.foldl_cons, h0, walk]
    cases hb : (fn s (k, .arr l)).1 with
    | true =>
      simp only [if_true]
      obtain ⟨R', h1, h2⟩ := wscan_walkL fn l 0 q (fn s (k, .arr l)).2 R g
        (by intro j p; rw [hg]; simp only [wnode, wkids, Nat.zero_add, List.getElem?_map]; cases l[j]? <;> rfl)
        (fun r hr j _ => wpre_down r q j (hR r hr).1 (hR r hr).2)
      refine ⟨R', ?_, h2⟩
      intro r hr
      rcases h1 r hr with h | ⟨j, _, h⟩
      · exact .inl h
      · exact .inr ((List.prefix_append q [j]).trans h)
    | false =>
      refine ⟨q :: R, ?_, ?_⟩
      · intro r hr
        rcases List.mem_cons.1 hr with h | h
        · exact .inr (h ▸ List.prefix_rfl)
        · exact .inl h
      · simp only [Bool.false_eq_true, if_false]
        apply wscan_skip
        intro p hp
        obtain ⟨t, _, rfl⟩ := List.mem_map.1 hp
        exact ⟨q, List.mem_cons_self, List.prefix_append _ _⟩
  | obj l =>
    simp only [wpaths, List.map_cons, List.append_nil, List.foldl_cons, h0, walk]
    cases hb : (fn s (k, .obj l)).1 with
    | true =>
      simp only [if_true]
      obtain ⟨R', h1, h2⟩ := wscan_walkM fn l 0 q (fn s (k, .obj l)).2 R g
        (by intro j p; rw [hg]; simp only [wnode, wkids, Nat.zero_add, List.getElem?_map]; cases l[j]? <;> rfl)
        (fun r hr j _ => wpre_down r q j (hR r hr).1 (hR r hr).2)
      refine ⟨R', ?_, h2⟩
      intro r hr
      rcases h1 r hr with h | ⟨j, _, h⟩
      · exact .inl h
      · exact .inr ((List.prefix_append q [j]).trans h)
    | false =>
      refine ⟨q :: R, ?_, ?_⟩
      · intro r hr
        rcases List.mem_cons.1 hr with h | h
        · exact .inr (h ▸ List.prefix_rfl)
        · exact .inl h
      · simp only [Bool.false_eq_true, if_false]
        apply wscan_skip
        intro p hp
        obtain ⟨t, _, rfl⟩ := List.mem_map.1 hp
        exact ⟨q, List.mem_cons_self, List.prefix_append _ _⟩
  | undef => simpa [wpaths, walk] using leaf
  | null => simpa [wpaths, walk] using leaf
  | bool b => simpa [wpaths, walk] using leaf
  | num n => simpa [wpaths, walk] using leaf
  | str t => simpa [wpaths, walk] using leaf
theorem wscan_walkL {σ : Type} (fn : σ → Node → Bool × σ) (l : List JV) (i : Nat) (q : WPath) (s : σ) (R : List WPath)
    (g : WPath → Option Node) (hg : ∀ j p, g (q ++ (i + j) :: p) = (l[j]?).bind fun c => wnode (none, c) p)
    (hR : ∀ r ∈ R, ∀ j, i ≤ j → ¬ r <+: q ++ [j] ∧ ¬ q ++ [j] <+: r) :
    ∃ R', (∀ r ∈ R', r ∈ R ∨ ∃ j, i ≤ j ∧ q ++ [j] <+: r) ∧
      ((wpathsL i l).map (q ++ ·)).foldl (wscan fn g) (s, R) = (walkL fn s l, R') := by
  cases l with
  | nil => exact ⟨R, fun r hr => .inl hr, rfl⟩
  | cons v r =>
    obtain ⟨R1, a1, a2⟩ := wscan_walk fn v none (q ++ [i]) s R g
      (by intro p; have := hg 0 p; simpa using this) (fun t ht => hR t ht i (Nat.le_refl _))
    obtain ⟨R2, b1, b2⟩ := wscan_walkL fn r (i + 1) q (walk fn s none v) R1 g
      (by intro j p; have := hg (j + 1) p; simpa [Nat.add_assoc, Nat.add_comm 1 j] using this)
      (by
        intro t ht j hj
        rcases a1 t ht with h | h
        · exact hR t h j (by omega)
        · exact wpre_side t q i j (by omega) h)
    refine ⟨R2, ?_, ?_⟩
    · intro t ht
      rcases b1 t ht with h | ⟨j, hj, h⟩
      · rcases a1 t h with h | h
        · exact .inl h
        · exact .inr ⟨i, Nat.le_refl _, h⟩
      · exact .inr ⟨j, by omega, h⟩
    · simp only [wpathsL, List.map_append, List.map_map, List.foldl_append, walkL]
      have : ((fun x => q ++ x) ∘ fun x => i :: x) = fun p => (q ++ [i]) ++ p := by funext p; simp
      rw [this, a2]
      exact b2
theorem wscan_walkM {σ : Type} (fn : σ → Node → Bool × σ) (l : List (Bytes × JV)) (i : Nat) (q : WPath) (s : σ) (R : List WPath)
    (g : WPath → Option Node) (hg : ∀ j p, g (q ++ (i + j) :: p) = (l[j]?).bind fun c => wnode (some c.1, c.2) p)
    (hR : ∀ r ∈ R, ∀ j, i ≤ j → ¬ r <+: q ++ [j] ∧ ¬ q ++ [j] <+: r) :
    ∃ R', (∀ r ∈ R', r ∈ R ∨ ∃ j, i ≤ j ∧ q ++ [j] <+: r) ∧
      ((wpathsM i l).map (q ++ ·)).foldl (wscan fn g) (s, R) = (walkM fn s l, R') := by
  cases l with
  | nil => exact ⟨R, fun r hr => .inl hr, rfl⟩
  | cons m r =>
    obtain ⟨k, v⟩ := m
    obtain ⟨R1, a1, a2⟩ := wscan_walk fn v (some k) (q ++ [i]) s R g
      (by intro p; have := hg 0 p; simpa using this) (fun t ht => hR t ht i (Nat.le_refl _))
    obtain ⟨R2, b1, b2⟩ := wscan_walkM fn r (i + 1) q (walk fn s (some k) v) R1 g
      (by intro j p; have := hg (j + 1) p; simpa [Nat.add_assoc, Nat.add_comm 1 j] using this)
      (by
        intro t ht j hj
        rcases a1 t ht with h | h
        · exact hR t h j (by omega)
        · exact wpre_side t q i j (by omega) h)
    refine ⟨R2, ?_, ?_⟩
    · intro t ht
      rcases b1 t ht with h | ⟨j, hj, h⟩
      · rcases a1 t h with h | h
        · exact .inl h
        · exact .inr ⟨i, Nat.le_refl _, h⟩
      · exact .inr ⟨j, by omega, h⟩
    · simp only [wpathsM, List.map_append, List.map_map, List.foldl_append, walkM]
      have : ((fun x => q ++ x) ∘ fun x => i :: x) = fun p => (q ++ [i]) ++ p := by funext p; simp
      rw [this, a2]
      exact b2
end

/-- C141: `walk` with any function, which may remember things from call to call, does what going through all addresses of the tree in
order does, calling the function with the node at each, except for those below an address it has refused. -/
theorem C141_walk {σ : Type} (fn : σ → Node → Bool × σ) (s : σ) (k : Option Bytes) (v : JV) :
    walk fn s k v = ((wpaths v).foldl (wscan fn (wnode (k, v))) (s, [])).1 := by
  obtain ⟨R', _, h⟩ := wscan_walk fn v k [] s [] (wnode (k, v)) (fun p => rfl) (by simp)
  have e : (wpaths v).map ([] ++ ·) = wpaths v := by simp
  rw [e] at h
  rw [h]

mutual
theorem wpaths_mem (v : JV) (k : Option Bytes) (p : WPath) : p ∈ wpaths v ↔ (wnode (k, v) p).isSome = true := by
  cases v with
  | arr l =>
    cases p with
    | nil => simp [wpaths, wnode]
    | cons j p =>
      simp only [wpaths, List.mem_cons, reduceCtorEq, false_or]
      rw [wpathsL_mem l 0 j p]
      simp only [wnode, wkids, Nat.zero_le, true_and, Nat.sub_zero, List.getElem?_map]
      cases l[j]? <;> simp
  | obj l =>
    cases p with
    | nil => simp [wpaths, wnode]
    | cons j p =>
      simp only [wpaths, List.mem_cons, reduceCtorEq, false_or]
      rw [wpathsM_mem l 0 j p]
      simp only [wnode, wkids, Nat.zero_le, true_and, Nat.sub_zero, List.getElem?_map]
      cases l[j]? <;> simp
  | undef => cases p <;> simp [wpaths, wnode, wkids]
  | null => cases p <;> simp [wpaths, wnode, wkids]
  | bool b => cases p <;> simp [wpaths, wnode, wkids]
  | num n => cases p <;> simp [wpaths, wnode, wkids]
  | str t => cases p <;> simp [wpaths, wnode, wkids]
theorem wpathsL_mem (l : List JV) (i j : Nat) (p : WPath) :
    (j :: p) ∈ wpathsL i l ↔ i ≤ j ∧ ((l[j - i]?).bind fun c => wnode (none, c) p).isSome = true := by
  cases l with
  | nil => simp [wpathsL]
  | cons v r =>
    simp only [wpathsL, List.mem_append, List.mem_map, List.cons.injEq]
    rw [wpathsL_mem r (i + 1) j p]
    by_cases hij : i = j
    · subst hij
      have : ¬ i + 1 ≤ i := by omega
      simp only [this, false_and, or_false, Nat.le_refl, true_and, Nat.sub_self, List.getElem?_cons_zero, Option.bind_some]
      rw [← wpaths_mem v none p]
      simp
    · by_cases hlt : i < j
      · obtain ⟨d, rfl⟩ : ∃ d, j = i + 1 + d := ⟨j - (i + 1), by omega⟩
        have e1 : i + 1 + d - (i + 1) = d := by omega
        have e2 : i + 1 + d - i = d + 1 := by omega
        simp only [e1, e2, List.getElem?_cons_succ]
        constructor
        · rintro (⟨a, _, h, _⟩ | h)
          · omega
          · exact ⟨by omega, h.2⟩
        · rintro ⟨_, h⟩
          exact .inr ⟨by omega, h⟩
      · constructor
        · rintro (⟨a, _, h, _⟩ | h)
          · exact absurd h hij
          · omega
        · rintro ⟨h, _⟩; omega
theorem wpathsM_mem (l : List (Bytes × JV)) (i j : Nat) (p : WPath) :
    (j :: p) ∈ wpathsM i l ↔ i ≤ j ∧ ((l[j - i]?).bind fun c => wnode (some c.1, c.2) p).isSome = true := by
  cases l with
  | nil => simp [wpathsM]
  | cons m r =>
    obtain ⟨k, v⟩ := m
    simp only [wpathsM, List.mem_append, List.mem_map, List.cons.injEq]
    rw [wpathsM_mem r (i + 1) j p]
    by_cases hij : i = j
    · subst hij
      have : ¬ i + 1 ≤ i := by omega
      simp only [this, false_and, or_false, Nat.le_refl, true_and, Nat.sub_self, List.getElem?_cons_zero, Option.bind_some]
      rw [← wpaths_mem v (some k) p]
      simp
    · by_cases hlt : i < j
      · obtain ⟨d, rfl⟩ : ∃ d, j = i + 1 + d := ⟨j - (i + 1), by omega⟩
        have e1 : i + 1 + d - (i + 1) = d := by omega
        have e2 : i + 1 + d - i = d + 1 := by omega
        simp only [e1, e2, List.getElem?_cons_succ]
        constructor
        · rintro (⟨a, _, h, _⟩ | h)
          · omega
          · exact ⟨by omega, h.2⟩
        · rintro ⟨_, h⟩
          exact .inr ⟨by omega, h⟩
      · constructor
        · rintro (⟨a, _, h, _⟩ | h)
          · exact absurd h hij
          · omega
        · rintro ⟨h, _⟩; omega
end

/-- Order of addresses: a node before those below it, items in their order. -/
def WLt : WPath → WPath → Prop
  | _, [] => False
  | [], _ :: _ => True
  | i :: p, j :: q => i < j ∨ (i = j ∧ WLt p q)

theorem wlt_head (l : List WPath) (h : ∀ p ∈ l, p ≠ []) : ∀ p ∈ l, WLt [] p := by
  intro p hp
  cases p with
  | nil => exact absurd rfl (h _ hp)
  | cons _ _ => trivial

mutual
theorem wpaths_sorted (v : JV) : (wpaths v).Pairwise WLt := by
  cases v with
  | arr l =>
    simp only [wpaths, List.pairwise_cons]
    refine ⟨?_, (wpathsL_sorted l 0).1⟩
    intro p hp
    obtain ⟨j, q, rfl, _⟩ := (wpathsL_sorted l 0).2 p hp
    trivial
  | obj l =>
    simp only [wpaths, List.pairwise_cons]
    refine ⟨?_, (wpathsM_sorted l 0).1⟩
    intro p hp
    obtain ⟨j, q, rfl, _⟩ := (wpathsM_sorted l 0).2 p hp
    trivial
  | undef => simp [wpaths]
  | null => simp [wpaths]
  | bool b => simp [wpaths]
  | num n => simp [wpaths]
  | str t => simp [wpaths]
theorem wpathsL_sorted (l : List JV) (i : Nat) :
    (wpathsL i l).Pairwise WLt ∧ ∀ p ∈ wpathsL i l, ∃ j q, p = j :: q ∧ i ≤ j := by
  cases l with
  | nil => simp [wpathsL]
  | cons v r =>
    have h1 := wpaths_sorted v
    have h2 := wpathsL_sorted r (i + 1)
    simp only [wpathsL]
    refine ⟨?_, ?_⟩
    · rw [List.pairwise_append]
      refine ⟨?_, h2.1, ?_⟩
      · rw [List.pairwise_map]
        exact h1.imp fun h => .inr ⟨rfl, h⟩
      · intro a ha b hb
        obtain ⟨p, _, rfl⟩ := List.mem_map.1 ha
        obtain ⟨j, q, rfl, hj⟩ := h2.2 b hb
        exact .inl (by omega)
    · intro p hp
      rcases List.mem_append.1 hp with h | h
      · obtain ⟨q, _, rfl⟩ := List.mem_map.1 h
        exact ⟨i, q, rfl, Nat.le_refl _⟩
      · obtain ⟨j, q, rfl, hj⟩ := h2.2 p h
        exact ⟨j, q, rfl, by omega⟩
theorem wpathsM_sorted (l : List (Bytes × JV)) (i : Nat) :
    (wpathsM i l).Pairwise WLt ∧ ∀ p ∈ wpathsM i l, ∃ j q, p = j :: q ∧ i ≤ j := by
  cases l with
  | nil => simp [wpathsM]
  | cons m r =>
    obtain ⟨k, v⟩ := m
    have h1 := wpaths_sorted v
    have h2 := wpathsM_sorted r (i + 1)
    simp only [wpathsM]
    refine ⟨?_, ?_⟩
    · rw [List.pairwise_append]
      refine ⟨?_, h2.1, ?_⟩
      · rw [List.pairwise_map]
        exact h1.imp fun h => .inr ⟨rfl, h⟩
      · intro a ha b hb
        obtain ⟨p, _, rfl⟩ := List.mem_map.1 ha
        obtain ⟨j, q, rfl, hj⟩ := h2.2 b hb
        exact .inl (by omega)
    · intro p hp
      rcases List.mem_append.1 hp with h | h
      · obtain ⟨q, _, rfl⟩ := List.mem_map.1 h
        exact ⟨i, q, rfl, Nat.le_refl _⟩
      · obtain ⟨j, q, rfl, hj⟩ := h2.2 p h
        exact ⟨j, q, rfl, by omega⟩
end

/-- C141: the addresses gone through are those of all nodes, each once, in order (parents first, items in their order). -/
theorem C141_addresses (v : JV) (k : Option Bytes) :
    (∀ p, p ∈ wpaths v ↔ (wnode (k, v) p).isSome = true) ∧ (wpaths v).Pairwise WLt :=
  ⟨wpaths_mem v k, wpaths_sorted v⟩

theorem wscan_all {σ : Type} (g : WPath → Option Node) (f : σ → Node → σ) (ps : List WPath) (s : σ) :
    (ps.foldl (wscan (fun s n => (true, f s n)) g) (s, [])) = ((ps.filterMap g).foldl f s, []) := by
  induction ps generalizing s with
  | nil => rfl
  | cons p r ih =>
    simp only [List.foldl_cons, wscan, List.any_nil, Bool.false_eq_true, if_false]
    cases hg : g p with
    | none => simp only [List.filterMap_cons, hg]; exact ih s
    | some n => simp only [List.filterMap_cons, hg, if_true, List.foldl_cons]; exact ih _

/-- C141: a function that enters everything is called once for every node, in order. -/
theorem C141_walk_all {σ : Type} (f : σ → Node → σ) (s : σ) (k : Option Bytes) (v : JV) :
    walk (fun s n => (true, f s n)) s k v = ((wpaths v).filterMap (wnode (k, v))).foldl f s := by
  rw [C141_walk, wscan_all]

/-- A walk that lists what it sees and does not enter objects. -/
example : walk (fun (s : List JV) n => (match n.2 with | .obj _ => false | _ => true, s ++ [n.2])) [] none
    (.arr [.null, .obj [([97], .bool true)], .arr [.undef]]) =
    [.arr [.null, .obj [([97], .bool true)], .arr [.undef]], .null, .obj [([97], .bool true)], .arr [.undef], .undef] := by
  simp [walk, walkL]

end Imt.Props
