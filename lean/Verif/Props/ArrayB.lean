import Verif.Lemmas.ArrayB
/-!
# Properties of the array builder (C32, C33, C34)
-/
namespace Imt.Props
open Imt Imt.ArrB Imt.Spec

variable {α : Type}

/-! ## C32 — the builder behaves as a list -/

/-- The builder operation behind each list operation. -/
def runB (u : α) : LOp α → AB α → Res (AB α)
  | .add v, s => .ok (add s v)
  | .addSet vs, s => .ok (addSet s vs)
  | .insert p v, s => insert u s p v
  | .erase p, s => erase u s p
  | .eraseSet p n, s => eraseSet u s p n
  | .set p v, s => ArrB.set u s p v
  | .trunc p, s => trunc s p
  | .setSize n v, s => setSize s n v
  | .clear, s => .ok (clear s)
  | .revert, s => .ok (revert s)
  | .reverse, s => reverse u s

/-- A sequence of builder operations. -/
def runBs (u : α) : List (LOp α) → AB α → Res (AB α)
  | [], s => .ok s
  | op :: ops, s => do let s ← runB u op s; runBs u ops s

theorem runB_rep (u : α) (op : LOp α) {s : AB α} {b l : List α} (h : Rep s b l) (hr : op.InRange l) :
    ∃ s', runB u op s = .ok s' ∧ Rep s' (op.run (b, l)).1 (op.run (b, l)).2 := by
  cases op with
  | add v => exact ⟨_, rfl, rep_add h v⟩
  | addSet vs => exact ⟨_, rfl, rep_addSet h vs⟩
  | insert p v => exact rep_insert h u hr v
  | erase p => exact rep_erase h u hr
  | eraseSet p n => exact rep_eraseSet h u hr
  | set p v => exact rep_set h u hr v
  | trunc p => exact rep_trunc h hr
  | setSize n v => exact rep_setSize h n v
  | clear => exact ⟨_, rfl, rep_clear h⟩
  | revert => exact ⟨_, rfl, rep_revert h⟩
  | reverse => exact rep_reverse h u

theorem runBs_rep (u : α) : ∀ (ops : List (LOp α)) {s : AB α} {b l : List α}, Rep s b l → Legal ops (b, l) →
    ∃ s', runBs u ops s = .ok s' ∧ Rep s' (runOps ops (b, l)).1 (runOps ops (b, l)).2
  | [], s, _, _, h, _ => ⟨s, rfl, h⟩
  | op :: ops, s, b, l, h, hl => by
    obtain ⟨s1, e1, h1⟩ := runB_rep u op h hl.1
    obtain ⟨s2, e2, h2⟩ := runBs_rep u ops h1 hl.2
    exact ⟨s2, by rw [runBs, e1]; exact e2, h2⟩

/-- The remembered base of a run never holds an item the original base did not hold. -/
theorem runOps_base (ops : List (LOp α)) : ∀ (b l : List α), (runOps ops (b, l)).1 = b ∨ (runOps ops (b, l)).1 = [] := by
  induction ops with
  | nil => exact fun b l => Or.inl rfl
  | cons op ops ih =>
    intro b l
    have h : (op.run (b, l)).1 = b ∨ (op.run (b, l)).1 = [] := by cases op <;> simp [LOp.run]
    rw [runOps]
    rcases hq : op.run (b, l) with ⟨b', l'⟩
    rw [hq] at h
    rcases h with h | h
    · exact (show b' = b from h) ▸ ih b' l'
    · right; simpa [show b' = [] from h] using ih b' l'

/-- Any legal sequence of operations on a builder over any base `b` never runs into undefined behaviour or an exception.
Afterwards `size`, `operator[]` and `commit` show the list those operations give. -/
theorem C32_list_partial (isDef : α → Bool) (u : α) (b : List α) (ops : List (LOp α)) (hl : Legal ops (b, b))
    (hb : ∀ v ∈ b, isDef v = true) :
    ∃ s, runBs u ops (ofBase b) = .ok s ∧ size s = (runOps ops (b, b)).2.length ∧
      (∀ i (h : i < (runOps ops (b, b)).2.length), get u s i = .ok (runOps ops (b, b)).2[i]) ∧
      (∀ i, (runOps ops (b, b)).2.length ≤ i → get u s i = .err) ∧
      commit isDef u s = .ok ((runOps ops (b, b)).2.filter isDef) := by
  obtain ⟨s, e, h⟩ := runBs_rep u ops (rep_ofBase b) hl
  refine ⟨s, e, h.size, fun i hi => rep_get h u hi, fun i hi => get_out h u hi, rep_commit_def h isDef u ?_⟩
  intro v hv
  rcases runOps_base ops b b with h | h
  · exact hb v (h ▸ hv)
  · rw [h] at hv; exact absurd hv (by simp)

/-- A mixed sequence on a base of four items, with an item (`0`) playing the undefined value. -/
example : Legal [LOp.insert 2 9, .erase 0, .set 1 7, .trunc 3, .add 0, .reverse, .add 5] ([1, 2, 3, 4], [1, 2, 3, 4])
    ∧ (runOps [LOp.insert 2 9, .erase 0, .set 1 7, .trunc 3, .add 0, .reverse, .add 5]
        ([1, 2, 3, 4], [1, 2, 3, 4])).2.filter (· != 0) = [3, 7, 2, 5] := by
  refine ⟨⟨?_, ?_, ?_, ?_, trivial, trivial, trivial, trivial⟩, by decide⟩ <;> simp [LOp.run, LOp.InRange]

/-- The containers `commit` fills never hold more items than they have room for, and what is refused changes nothing. -/
theorem C32_room (cap : Nat) (l : List α) (v : α) (h : l.length ≤ cap) :
    (pushCap cap l v).length ≤ cap ∧ (l.length < cap → pushCap cap l v = l ++ [v]) ∧ (l.length = cap → pushCap cap l v = l) := by
  unfold pushCap
  split
  · refine ⟨by simp; omega, fun _ => rfl, fun e => by omega⟩
  · exact ⟨h, fun e => by omega, fun _ => rfl⟩

example : pushCap 2 [1, 2] 3 = [1, 2] ∧ pushCap 3 [1, 2] 3 = [1, 2, 3] := by decide

/-- C32: setting another base replaces the untouched items at the beginning by the items of the new base at the same
positions and keeps the edited part; a builder without edits takes the new base over. -/
theorem C32_setBase {s : AB α} {b l : List α} (h : Rep s b l) (b' : List α) :
    Rep (setBase s b') b' (if s.changes = [] then b' else b'.take s.offset ++ l.drop s.offset) := by
  have hc := h.changes
  unfold setBase
  by_cases h0 : s.changes = []
  · rw [if_pos (by simp [h0]), if_pos h0]
    exact ⟨rfl, Nat.le_refl _, by simp [h0]⟩
  · rw [if_neg (by simpa using h0), if_neg h0]
    refine ⟨rfl, Nat.min_le_right _ _, ?_⟩
    simp only [hc, List.map_append, List.map_take, List.map_drop]
    congr 1
    rw [List.take_eq_take_iff, List.length_map]
    omega

example : Rep (⟨[1, 2, 3], [some 9], 2⟩ : AB Nat) [1, 2, 3] [1, 2, 9] ∧
    (setBase ⟨[1, 2, 3], [some 9], 2⟩ [7] : AB Nat) = ⟨[7], [some 9], 1⟩ :=
  ⟨⟨rfl, by decide, rfl⟩, rfl⟩

/-- Undefined items of the base are not dropped as long as no operation touches them: the same content commits to
different arrays. -/
theorem C32_violation_undefined_base :
    (do let s ← runBs 0 [LOp.add 2] (ofBase [0, 1]); commit (· != 0) 0 s : Res (List Nat)) = .ok [0, 1, 2] ∧
    (do let s ← runBs 0 [LOp.set 0 0, .add 2] (ofBase [0, 1]); commit (· != 0) 0 s : Res (List Nat)) = .ok [1, 2] := by
  decide +kernel

/-- `reverse` forgets the base, so a following `revert` empties the builder instead of going back to the base. -/
theorem C32_violation_reverse_revert :
    (do let s ← runBs 0 [LOp.reverse, .revert] (ofBase [1, 2]); commit (· != 0) 0 s : Res (List Nat)) = .ok [] := by
  decide +kernel

/-! ## C33 — insertSet -/

theorem insertLoop_eq (vs : List α) : ∀ (pre post : List (Option α)), (insertLoop pre.length vs
    (pre ++ (List.replicate vs.length none ++ post))) = .ok (pre ++ (vs.map some ++ post)) := by
  induction vs with
  | nil => intro pre post; simp [insertLoop]
  | cons v vs ih =>
    intro pre post
    rw [insertLoop, List.length_cons, List.replicate_succ, List.cons_append]
    rw [vecSet, if_pos (by simp)]
    simp only [Res.bind_ok]
    have e : (pre ++ none :: (List.replicate vs.length none ++ post)).set pre.length (some v) =
        (pre ++ [some v]) ++ (List.replicate vs.length none ++ post) := by
      rw [List.set_append_right _ _ (Nat.le_refl _), Nat.sub_self]; simp
    rw [e, show pre.length + 1 = (pre ++ [some v]).length by simp, ih]
    simp

/-- `insertSet` inserts the items when the position is 0 or nothing of the base is kept (a new builder). -/
theorem C33_insert_partial (u : α) {s : AB α} {b l : List α} (h : Rep s b l) (pos : Nat) (vs : List α)
    (hp : pos ≤ l.length) (h0 : pos = 0 ∨ s.offset = 0) :
    ∃ s', insertSet u s pos vs = .ok s' ∧ Rep s' b (l.take pos ++ vs ++ l.drop pos) := by
  obtain ⟨hr, ho⟩ := h.extend u pos
  have ho' : (extendChanges u s pos).offset = 0 := by rcases h0 with h0 | h0 <;> omega
  unfold insertSet
  simp only [vecInsert]
  have hc := hr.changes
  rw [ho', List.drop_zero] at hc
  rw [if_pos (by rw [hc, ho']; simpa using hp)]
  simp only [Res.bind_ok, ho', Nat.sub_zero, Nat.add_zero]
  have := insertLoop_eq vs ((extendChanges u s pos).changes.take pos) ((extendChanges u s pos).changes.drop pos)
  rw [List.length_take, hc, List.length_map, Nat.min_eq_left hp, ← List.append_assoc] at this
  rw [hc, this]
  refine ⟨_, rfl, Rep.mk' hr.1 ?_ ?_ ?_⟩
  · simp [ho']
  · simp [ho']
  · simp [ho', List.map_drop, List.map_take]

example : (do let s ← insertSet 0 (ofList [1, 2, 3]) 2 [8, 9]; commit (· != 0) 0 s : Res (List Nat)) =
    .ok [1, 2, 8, 9, 3] := by decide +kernel

theorem insertLoop_lower (vs : List α) : ∀ (at' : Nat) (ch ch' : List (Option α)) (i : Nat), i < at' →
    insertLoop at' vs ch = .ok ch' → ch'[i]? = ch[i]? := by
  induction vs with
  | nil => intro a ch ch' i _ h; simp [insertLoop] at h; rw [h]
  | cons v vs ih =>
    intro a ch ch' i hi h
    rw [insertLoop, vecSet] at h
    split at h
    · rw [ih (a + 1) _ ch' i (by omega) (by simpa using h), List.getElem?_set, if_neg (by omega)]
    · simp at h

theorem insertLoop_outcome (vs : List α) : ∀ (at' : Nat) (ch : List (Option α)),
    insertLoop at' vs ch = .ub ∨ ∃ ch', insertLoop at' vs ch = .ok ch' := by
  induction vs with
  | nil => intro a ch; right; exact ⟨ch, rfl⟩
  | cons v vs ih =>
    intro a ch
    rw [insertLoop, vecSet]
    split
    · exact ih (a + 1) _
    · left; rfl

theorem commitChanges_null (isDef : α → Bool) (cap : Nat) : ∀ (l : List (Option α)) (i : Nat) (out : List α),
    l[i]? = some none → commitChanges isDef cap l out = .ub
  | [], i, out, h => by simp at h
  | none :: _, _, _, _ => rfl
  | some v :: r, 0, out, h => by simp at h
  | some v :: r, i + 1, out, h => by
    rw [commitChanges]
    exact commitChanges_null isDef cap r i _ (by simpa using h)

/-- In every other case — a kept part of the base before the position, and at least one item — `insertSet` is wrong: it
writes outside the vector or leaves a null pointer that the next `commit` follows. -/
theorem C33_violation_always (isDef : α → Bool) (u : α) {s : AB α} {b l : List α} (h : Rep s b l) (pos : Nat)
    (vs : List α) (hp : pos ≤ l.length) (h0 : 0 < pos) (h1 : 0 < s.offset) (hv : vs ≠ []) :
    (do let s ← insertSet u s pos vs; commit isDef u s) = .ub := by
  obtain ⟨hr, ho⟩ := h.extend u pos
  have hpos : 0 < vs.length := List.length_pos_iff.mpr hv
  unfold insertSet
  simp only [vecInsert]
  rw [if_pos (by rw [hr.changes]; simp; omega)]
  simp only [Res.bind_ok]
  rcases insertLoop_outcome vs (pos + (extendChanges u s pos).offset) ((extendChanges u s pos).changes.take
    (pos - (extendChanges u s pos).offset) ++ List.replicate vs.length none ++ (extendChanges u s pos).changes.drop
    (pos - (extendChanges u s pos).offset)) with h2 | ⟨ch, h2⟩
  · rw [h2]; rfl
  · rw [h2]
    have hl := insertLoop_lower vs _ _ ch (pos - (extendChanges u s pos).offset) (by omega) h2
    have hlen : (extendChanges u s pos).changes.length = l.length - (extendChanges u s pos).offset := by
      rw [hr.changes]; simp
    rw [List.append_assoc, List.getElem?_append_right (by simp; omega)] at hl
    simp only [List.length_take] at hl
    rw [hlen, show pos - (extendChanges u s pos).offset - min (pos - (extendChanges u s pos).offset)
      (l.length - (extendChanges u s pos).offset) = 0 by omega] at hl
    rw [List.getElem?_append_left (by simpa using hpos), List.getElem?_replicate, if_pos hpos] at hl
    simp only [Res.pure_eq, Res.bind_ok]
    have hne : ch ≠ [] := by intro e; rw [e] at hl; simp at hl
    unfold commit
    have hlp : 0 < ch.length := List.length_pos_iff.mpr hne
    rw [if_neg (by simp only [size]; omega)]
    have hd : dirty { (extendChanges u s pos) with changes := ch } = true := by
      simp [dirty, List.isEmpty_eq_false_iff.mpr hne]
    rw [hd]
    exact commitChanges_null isDef _ _ _ _ hl

/-- For instance: inserting one item in the middle of an existing array of two, or of three; there the item at the position
cannot be read either. -/
theorem C33_violation_middle :
    (insertSet 0 (ofBase [1, 2]) 1 [9] : Res (AB Nat)) = .ub ∧
    (insertSet 0 (ofBase [1, 2, 3]) 1 [9] : Res (AB Nat)).bind (commit (· != 0) 0) = .ub ∧
    (insertSet 0 (ofBase [1, 2, 3]) 1 [9] : Res (AB Nat)).bind (fun s => get 0 s 1) = .ub := by
  decide +kernel

/-! ## C34 — slice -/

theorem slice1_eq (u : α) {s : AB α} {b l : List α} (h : Rep s b l) (start : Int) (hs : -2 ^ 63 < start) :
    ∃ s', slice1 u s start = .ok s' ∧ Rep s' b (l.drop (clampIdx l.length start)) := by
  have hz := h.size
  unfold slice1 clampIdx
  rw [if_neg (by omega)]
  split
  · rename_i hn
    split
    · rename_i hlt
      rw [if_neg (by omega)]
      obtain ⟨s', e, hr⟩ := rep_eraseSet h u (pos := 0) (n := (size s + start).toNat) (by omega)
      exact ⟨s', e, by simpa [hz] using hr⟩
    · refine ⟨s, rfl, ?_⟩
      rw [show ((l.length : Int) + start).toNat = 0 by omega]
      exact h
  · rename_i hn
    split
    · refine ⟨_, rfl, ?_⟩
      rw [List.drop_of_length_le (by omega)]
      exact rep_clear h
    · obtain ⟨s', e, hr⟩ := rep_eraseSet h u (pos := 0) (n := start.toNat) (by omega)
      refine ⟨s', e, ?_⟩
      rw [Nat.min_eq_left (by omega)]
      simpa using hr

theorem slice2pos_eq (u : α) {s : AB α} {b l : List α} (h : Rep s b l) (start en : Int) (hs : -2 ^ 63 < start)
    (he : 0 ≤ en) (hok : 0 ≤ start ∨ (l.length : Int) ≤ en) :
    ∃ s', slice2pos u s start en = .ok s' ∧ Rep s' b (window l start en) := by
  have hz := h.size
  unfold slice2pos window
  split
  · rename_i hlt
    have h0 : 0 ≤ start := by omega
    obtain ⟨s1, e1, h1⟩ := rep_trunc h (pos := en.toNat) (by omega)
    obtain ⟨s2, e2, h2⟩ := slice1_eq u h1 start hs
    refine ⟨s2, by rw [e1]; exact e2, ?_⟩
    rw [show clampIdx l.length en = en.toNat by simp only [clampIdx]; rw [if_neg (by omega)]; omega]
    have hc : (l.take en.toNat).drop (clampIdx (l.take en.toNat).length start) =
        (l.take en.toNat).drop (clampIdx l.length start) := by
      simp only [clampIdx, if_neg (show ¬ start < 0 by omega), List.length_take]
      by_cases hlt' : start.toNat ≤ min en.toNat l.length
      · congr 1; omega
      · rw [List.drop_of_length_le (by simp; omega), List.drop_of_length_le (by simp; omega)]
    rw [← hc]; exact h2
  · obtain ⟨s2, e2, h2⟩ := slice1_eq u h start hs
    refine ⟨s2, e2, ?_⟩
    rw [show clampIdx l.length en = l.length by simp only [clampIdx]; rw [if_neg (by omega)]; omega, List.take_length]
    exact h2

/-- `slice(start)` keeps the items from `start` on. -/
theorem C34_from (u : α) {s : AB α} {b l : List α} (h : Rep s b l) (start : Int) (hs : -2 ^ 63 < start) :
    ∃ s', slice1 u s start = .ok s' ∧ Rep s' b (window l start l.length) := by
  obtain ⟨s', e, hr⟩ := slice1_eq u h start hs
  refine ⟨s', e, ?_⟩
  unfold window
  rw [show clampIdx l.length (l.length : Int) = l.length by simp only [clampIdx]; rw [if_neg (by omega)]; omega, List.take_length]
  exact hr

/-- `slice(start, end)` keeps the window for non-negative arguments, for `start = 0` with any `end`, and for a negative
`start` with an `end` not below the length. -/
theorem C34_window_partial (u : α) {s : AB α} {b l : List α} (h : Rep s b l) (start en : Int) (hs : -2 ^ 63 < start)
    (he : -2 ^ 63 < en)
    (hok : start = 0 ∨ (0 ≤ start ∧ 0 ≤ en) ∨ (l.length : Int) ≤ en ∨ en ≤ -(l.length : Int)) :
    ∃ s', slice2 u s start en = .ok s' ∧ Rep s' b (window l start en) := by
  have hz := h.size
  unfold slice2
  by_cases hn : en < 0
  · rw [if_pos hn, if_neg (by omega)]
    split
    · rename_i hlt
      have h0 : start = 0 := by omega
      subst h0
      obtain ⟨s1, e1, h1⟩ := slice2pos_eq u h 0 (size s + en) (by omega) (by omega) (Or.inl (Int.le_refl _))
      obtain ⟨s2, e2, h2⟩ := slice1_eq u h1 0 (by omega)
      refine ⟨s2, by rw [e1]; exact e2, ?_⟩
      rw [show clampIdx (window l 0 (size s + en)).length 0 = 0 by simp [clampIdx], List.drop_zero] at h2
      convert h2 using 1
      simp only [window, clampIdx, if_pos hn]
      congr 2
      rw [if_neg (by omega)]; omega
    · obtain ⟨s2, e2, h2⟩ := slice1_eq u (rep_clear h) start hs
      refine ⟨s2, e2, ?_⟩
      rw [List.drop_nil] at h2
      convert h2 using 1
      simp only [window, clampIdx, if_pos hn]
      rw [show ((l.length : Int) + en).toNat = 0 by omega]
      simp
  · rw [if_neg hn]
    exact slice2pos_eq u h start en hs (by omega) (by omega)

example : window [1, 2, 3, 4, 5] 1 3 = [2, 3] ∧ window [1, 2, 3, 4, 5] (-3) (-1) = [3, 4] := by decide
example : (slice2 0 (ofBase [1, 2, 3, 4, 5]) 1 3 : Res (AB Nat)).bind (commit (· != 0) 0) = .ok [2, 3] := by
  decide +kernel

/-- A negative `end` makes the builder slice twice. -/
theorem C34_violation_twice :
    (slice2 0 (ofBase [1, 2, 3, 4]) 1 (-1) : Res (AB Nat)).bind (commit (· != 0) 0) = .ok [3] ∧
    window [1, 2, 3, 4] 1 (-1) = [2, 3] := by decide +kernel

/-- A negative `start` is counted from the new end. -/
theorem C34_violation_start :
    (slice2 0 (ofBase [1, 2, 3, 4]) (-3) 3 : Res (AB Nat)).bind (commit (· != 0) 0) = .ok [1, 2, 3] ∧
    window [1, 2, 3, 4] (-3) 3 = [2, 3] := by decide +kernel

/-- The items from `start` on; a negative `start` counts from the end. -/
def dropFrom (l : List α) (start : Int) : List α := l.drop (clampIdx l.length start)

/-- What `slice(start, end)` keeps, for all arguments: the items after `end` are dropped first, then those before `start`,
counted in what is left; when `end` is negative and within the array, those before `start` are dropped twice. -/
theorem C34_actual (u : α) {s : AB α} {b l : List α} (h : Rep s b l) (start en : Int) (hs : -2 ^ 63 < start)
    (he : -2 ^ 63 < en) :
    ∃ s', slice2 u s start en = .ok s' ∧ Rep s' b
      (if en < 0 ∧ -en < l.length then dropFrom (dropFrom (l.take (clampIdx l.length en)) start) start
       else dropFrom (l.take (clampIdx l.length en)) start) := by
  have hz := h.size
  have pos : ∀ e : Int, 0 ≤ e → ∃ s', slice2pos u s start e = .ok s' ∧
      Rep s' b (dropFrom (l.take (clampIdx l.length e)) start) := by
    intro e h0
    unfold slice2pos
    split
    · obtain ⟨s1, e1, h1⟩ := rep_trunc h (pos := e.toNat) (by omega)
      obtain ⟨s2, e2, h2⟩ := slice1_eq u h1 start hs
      refine ⟨s2, by rw [e1]; exact e2, ?_⟩
      rw [show clampIdx l.length e = e.toNat by simp only [clampIdx]; rw [if_neg (by omega)]; omega]
      exact h2
    · obtain ⟨s2, e2, h2⟩ := slice1_eq u h start hs
      refine ⟨s2, e2, ?_⟩
      rw [show clampIdx l.length e = l.length by simp only [clampIdx]; rw [if_neg (by omega)]; omega, List.take_length]
      exact h2
  unfold slice2
  by_cases hn : en < 0
  · rw [if_pos hn, if_neg (by omega)]
    by_cases hlt : -en < size s
    · rw [if_pos hlt, if_pos ⟨hn, by omega⟩]
      obtain ⟨s1, e1, h1⟩ := pos (size s + en) (by omega)
      obtain ⟨s2, e2, h2⟩ := slice1_eq u h1 start hs
      refine ⟨s2, by rw [e1]; exact e2, ?_⟩
      rw [show clampIdx l.length en = clampIdx l.length (size s + en) by
        simp only [clampIdx, if_pos hn]; rw [if_neg (by omega)]; omega]
      exact h2
    · rw [if_neg hlt, if_neg (by omega)]
      obtain ⟨s2, e2, h2⟩ := slice1_eq u (rep_clear h) start hs
      refine ⟨s2, e2, ?_⟩
      rw [List.drop_nil] at h2
      rw [show clampIdx l.length en = 0 by simp only [clampIdx, if_pos hn]; omega, List.take_zero, dropFrom, List.drop_nil]
      exact h2
  · rw [if_neg hn, if_neg (by omega)]
    exact pos en (by omega)

/-- The smallest integer as an argument is undefined behaviour: its negative is taken. -/
theorem C34_violation_smallest (u : α) (s : AB α) (start : Int) :
    slice1 u s (-2 ^ 63) = .ub ∧ slice2 u s start (-2 ^ 63) = .ub := by
  constructor
  · unfold slice1; rw [if_pos rfl]
  · unfold slice2; rw [if_pos (by decide), if_pos rfl]

end Imt.Props
