import Verif.Model.Str
import Mathlib.Tactic.ByContra
/-!
# C66, C82: `String`
-/
namespace Imt.Props
open Imt Imt.Str Imt.VOps

/-- `sep` occurs in `s` at position `i`. -/
def OccursAt (sep s : Bytes) (i : Nat) : Prop := ∃ a b, s = a ++ sep ++ b ∧ a.length = i

theorem occurs_iff (sep s : Bytes) (i : Nat) (hi : i ≤ s.length) : OccursAt sep s i ↔ sep.isPrefixOf (s.drop i) = true := by
  rw [List.isPrefixOf_iff_prefix]
  constructor
  · rintro ⟨a, b, rfl, rfl⟩
    exact ⟨b, by simp⟩
  · rintro ⟨b, hb⟩
    exact ⟨s.take i, b, by rw [List.append_assoc, hb, List.take_append_drop], by simp [hi]⟩

theorem occurs_le {sep s : Bytes} {i : Nat} (h : OccursAt sep s i) : i + sep.length ≤ s.length := by
  obtain ⟨a, b, rfl, rfl⟩ := h; simp

theorem indexOf_some {s sep : Bytes} {st p : Nat} (h : Str.indexOf s sep st = some p) :
    st ≤ p ∧ OccursAt sep s p ∧ ∀ j, st ≤ j → j < p → ¬ OccursAt sep s j := by
  unfold Str.indexOf at h
  rw [List.find?_range_eq_some] at h
  obtain ⟨h1, h2, h3⟩ := h
  rw [Bool.and_eq_true, decide_eq_true_eq] at h1
  rw [List.mem_range] at h2
  refine ⟨h1.1, (occurs_iff _ _ _ (by omega)).2 h1.2, ?_⟩
  intro j hj hlt ho
  have := h3 j hlt
  rw [(occurs_iff _ _ _ (by omega)).1 ho] at this
  simp [hj] at this

theorem indexOf_none {s sep : Bytes} {st : Nat} (h : Str.indexOf s sep st = none) : ∀ j, st ≤ j → ¬ OccursAt sep s j := by
  intro j hj ho
  unfold Str.indexOf at h
  rw [List.find?_range_eq_none] at h
  have hl := occurs_le ho
  have := h j (by omega)
  rw [(occurs_iff _ _ _ (by omega)).1 ho] at this
  simp [hj] at this

theorem indexOf_eq_some {s sep : Bytes} {st p : Nat} (h1 : st ≤ p) (h2 : OccursAt sep s p)
    (h3 : ∀ j, st ≤ j → j < p → ¬ OccursAt sep s j) : Str.indexOf s sep st = some p := by
  cases e : Str.indexOf s sep st with
  | none => exact absurd h2 (indexOf_none e p h1)
  | some q =>
    obtain ⟨a1, a2, a3⟩ := indexOf_some e
    rcases Nat.lt_trichotomy p q with h | h | h
    · exact absurd h2 (a3 p h1 h)
    · rw [h]
    · exact absurd a2 (h3 q a1 h)

theorem indexOf_eq_none {s sep : Bytes} {st : Nat} (h : ∀ j, st ≤ j → ¬ OccursAt sep s j) : Str.indexOf s sep st = none := by
  cases e : Str.indexOf s sep st with
  | none => rfl
  | some q => obtain ⟨a1, a2, a3⟩ := indexOf_some e; exact absurd a2 (h q a1)

/-- Parts joined by the separator. -/
def joined (sep : Bytes) : List Bytes → Bytes
  | [] => []
  | [x] => x
  | x :: r => x ++ sep ++ joined sep r

theorem splitLast_eq (s : Bytes) (c : Nat) (hc : c ≤ s.length) (hs : s.length < 2 ^ 64) : splitLast s c = s.drop c := by
  unfold splitLast
  split
  · subst_vars; rfl
  · rw [substr, List.take_of_length_le]
    unfold sub64
    rw [List.length_drop]
    omega

/-- How the parts must be cut: every part but the last is followed by the first separator in what remains; parts in number of the
limit plus one, or the last one without a separator. -/
inductive Cut (sep : Bytes) : Nat → Bytes → List Bytes → Prop where
  | limit (s : Bytes) : Cut sep 0 s [s]
  | last (n : Nat) (s : Bytes) (h : ∀ i, ¬ OccursAt sep s i) : Cut sep n s [s]
  | part (n : Nat) (p r : Bytes) (l : List Bytes) (h : ∀ i, i < p.length → ¬ OccursAt sep (p ++ sep ++ r) i) (hr : Cut sep n r l) :
      Cut sep (n + 1) (p ++ sep ++ r) (p :: l)

theorem occurs_drop {sep s : Bytes} {c i : Nat} : OccursAt sep (s.drop c) i → c ≤ s.length → OccursAt sep s (c + i) := by
  rintro ⟨a, b, e, rfl⟩ hc
  refine ⟨s.take c ++ a, b, ?_, by simp [hc]⟩
  rw [List.append_assoc, List.append_assoc, ← List.append_assoc a, ← e, List.take_append_drop]

theorem occurs_drop' {sep s : Bytes} {c i : Nat} : OccursAt sep s (c + i) → OccursAt sep (s.drop c) i := by
  rintro ⟨a, b, rfl, e⟩
  refine ⟨a.drop c, b, ?_, by simp; omega⟩
  rw [List.append_assoc, List.drop_append_of_le_length (by omega), List.append_assoc]

theorem splitLoop_cut (s sep : Bytes) (hs : s.length < 2 ^ 64) : ∀ (n c : Nat), c ≤ s.length →
    Cut sep n (s.drop c) (splitLoop s sep n c)
  | 0, c, hc => by rw [splitLoop, splitLast_eq s c hc hs]; exact .limit _
  | n + 1, c, hc => by
    rw [splitLoop]
    cases e : Str.indexOf s sep c with
    | none =>
      dsimp only
      rw [splitLast_eq s c hc hs]
      exact .last _ _ (fun i h => indexOf_none e (c + i) (by omega) (occurs_drop h hc))
    | some p =>
      dsimp only
      obtain ⟨h1, h2, h3⟩ := indexOf_some e
      have hl := occurs_le h2
      have ih := splitLoop_cut s sep hs n (p + sep.length) hl
      have hd : s.drop c = (s.drop c).take (p - c) ++ sep ++ s.drop (p + sep.length) := by
        obtain ⟨a, b, rfl, rfl⟩ := h2
        have e1 : (a ++ sep ++ b).drop (a.length + sep.length) = b := by
          rw [← List.length_append, List.drop_left]
        rw [e1, List.append_assoc, List.drop_append_of_le_length h1, List.take_left' (by simp), List.append_assoc]
      rw [substr]
      have hlen : ((s.drop c).take (p - c)).length = p - c := by simp; omega
      generalize (s.drop c).take (p - c) = x at *
      rw [hd]
      refine .part n x _ _ ?_ ih
      intro i hi ho
      rw [← hd] at ho
      exact h3 (c + i) (by omega) (by omega) (occurs_drop ho hc)

/-- **C66.** The parts are cut at the leftmost separators, as many as the limit says. -/
theorem C66_leftmost (s sep : Bytes) (n : Nat) (hs : s.length < 2 ^ 64) : Cut sep n s (split s sep n) :=
  splitLoop_cut s sep hs n 0 (Nat.zero_le _)

/-- The cut is unique. -/
theorem C66_unique (sep : Bytes) (n : Nat) (s : Bytes) (l l' : List Bytes) (h : Cut sep n s l) (h' : Cut sep n s l') : l = l' := by
  have occ : ∀ p r : Bytes, OccursAt sep (p ++ sep ++ r) p.length := fun p r => ⟨p, r, rfl, rfl⟩
  induction h generalizing l' with
  | limit s => cases h' <;> rfl
  | last n s h =>
    cases h' with
    | limit => rfl
    | last => rfl
    | part n p r l h1 h2 => exact absurd (occ p r) (h _)
  | part n p r l h1 h2 ih =>
    generalize hx : p ++ sep ++ r = x at h'
    cases h' with
    | last _ _ h => rw [← hx] at h; exact absurd (occ p r) (h _)
    | part _ p' r' l' h1' h2' =>
      have hpp : p.length = p'.length := by
        rcases Nat.lt_trichotomy p.length p'.length with h | h | h
        · refine absurd ?_ (h1' _ h); rw [← hx]; exact occ p r
        · exact h
        · refine absurd ?_ (h1 _ h); rw [hx]; exact occ p' r'
      rw [List.append_assoc, List.append_assoc] at hx
      obtain ⟨e1, e2⟩ := List.append_inj hx hpp
      obtain ⟨-, e3⟩ := List.append_inj e2 rfl
      subst e1; subst e3
      rw [ih _ h2']

theorem cut_ne_nil {sep : Bytes} {n : Nat} {s : Bytes} {l : List Bytes} (h : Cut sep n s l) : l ≠ [] := by cases h <;> simp

theorem joined_cons (sep x : Bytes) {l : List Bytes} (h : l ≠ []) : joined sep (x :: l) = x ++ sep ++ joined sep l := by
  cases l with
  | nil => exact absurd rfl h
  | cons y l => rfl

theorem cut_joined {sep : Bytes} {n : Nat} {s : Bytes} {l : List Bytes} (h : Cut sep n s l) : joined sep l = s := by
  induction h with
  | limit => rfl
  | last => rfl
  | part n p r l _ h2 ih => rw [joined_cons _ _ (cut_ne_nil h2), ih]

/-- **C66.** Joining the parts with the separator gives the string back. -/
theorem C66_join_split (s sep : Bytes) (n : Nat) (hs : s.length < 2 ^ 64) : joined sep (split s sep n) = s :=
  cut_joined (C66_leftmost s sep n hs)

theorem cut_length {sep : Bytes} {n : Nat} {s : Bytes} {l : List Bytes} (h : Cut sep n s l) : l.length ≤ n + 1 := by
  induction h with
  | limit => exact Nat.le_refl _
  | last => simp
  | part => simp only [List.length_cons]; omega

/-- **C66.** At most `maxCount + 1` parts. -/
theorem C66_limit (s sep : Bytes) (n : Nat) (hs : s.length < 2 ^ 64) : (split s sep n).length ≤ n + 1 :=
  cut_length (C66_leftmost s sep n hs)

theorem cut_free {sep : Bytes} (hsep : sep ≠ []) {n : Nat} {s : Bytes} {l : List Bytes} (h : Cut sep n s l) (hn : s.length < n) :
    ∀ p ∈ l, ∀ i, ¬ OccursAt sep p i := by
  have hpos : 0 < sep.length := List.length_pos_iff.2 hsep
  induction h with
  | limit => omega
  | last _ _ h => intro p hp; rw [List.mem_singleton.1 hp]; exact h
  | part n p r l h1 h2 ih =>
    intro q hq
    rcases List.mem_cons.1 hq with rfl | hq
    · intro i ho
      have hi := occurs_le ho
      refine h1 i (by omega) ?_
      obtain ⟨a, b, rfl, rfl⟩ := ho
      exact ⟨a, b ++ sep ++ r, by simp, rfl⟩
    · simp only [List.length_append] at hn
      exact ih (by omega) q hq

/-- **C66.** Without a limit (the default limit is `2^64-1`) no part contains the separator. -/
theorem C66_no_separator (s sep : Bytes) (hsep : sep ≠ []) (n : Nat) (hs : s.length < 2 ^ 64) (hn : s.length < n) :
    ∀ p ∈ split s sep n, ∀ i, ¬ OccursAt sep p i :=
  cut_free hsep (C66_leftmost s sep n hs) hn

/-- `"a,,b"` split by `","`, and `"aaa"` by `"aa"`. -/
example : split [97, 44, 44, 98] [44] 100 = [[97], [], [98]] ∧ split [97, 97, 97] [97, 97] 100 = [[], [97]] ∧
    split [97, 44, 98, 44, 99] [44] 1 = [[97], [98, 44, 99]] := by decide +kernel

/-! ### C82: insert, replace, concatenation -/

/-- Reading past the end of a block is undefined. -/
theorem readAt_ub (a : Bytes) {p n : Nat} (h : a.length < p + n) : readAt a p n = .ub := if_neg (by omega)
example : readAt [1, 2] 1 2 = .ub := by decide

theorem readAt_ok (a : Bytes) {p n : Nat} (h : p + n ≤ a.length) : readAt a p n = .ok ((a.drop p).take n) := if_pos h

theorem writeAt_ok (pre mid post src : Bytes) (h : src.length = mid.length) :
    writeAt (pre ++ (mid ++ post)) pre.length src = .ok (pre ++ (src ++ post)) := by
  unfold writeAt
  rw [if_pos (by simp; omega), List.take_left' rfl, h, ← List.length_append, ← List.append_assoc pre mid,
    List.drop_left, List.append_assoc]

theorem rep_split (n a b : Nat) (h : n = a + b) : List.replicate n (0 : Nat) = List.replicate a 0 ++ List.replicate b 0 := by
  rw [h, List.replicate_append_replicate]

/-- Three consecutive copies fill the buffer. -/
theorem three_copies (x y z : Bytes) : (do
    let b ← writeAt (List.replicate (x.length + y.length + z.length) 0) 0 x
    let b ← writeAt b x.length y
    writeAt b (x.length + y.length) z) = .ok (x ++ (y ++ z)) := by
  rw [rep_split _ x.length (y.length + z.length) (by omega), rep_split (y.length + z.length) y.length z.length rfl]
  have h1 := writeAt_ok [] (List.replicate x.length 0) (List.replicate y.length 0 ++ List.replicate z.length 0) x (by simp)
  rw [List.nil_append] at h1
  simp only [List.length_nil] at h1
  rw [h1]
  show (do let b ← writeAt (x ++ (List.replicate y.length 0 ++ List.replicate z.length 0)) x.length y; _) = _
  rw [writeAt_ok x (List.replicate y.length 0) (List.replicate z.length 0) y (by simp)]
  show writeAt (x ++ (y ++ List.replicate z.length 0)) (x.length + y.length) z = _
  have h3 := writeAt_ok (x ++ y) (List.replicate z.length 0) [] z (by simp)
  rw [List.append_nil, List.append_nil, List.append_assoc, List.append_assoc, List.length_append] at h3
  exact h3

/-- **C82.** `insert` inserts at the position, at the end for positions behind it; all accesses stay in the blocks. -/
theorem C82_insert (s : Bytes) (pos : Nat) (what : Bytes) :
    Str.insert s pos what = .ok (s.take pos ++ (what ++ s.drop pos)) := by
  unfold Str.insert
  by_cases hw : what = []
  · subst hw; simp
  · rw [if_neg hw]
    have hp : (if pos > s.length then s.length else pos) = min pos s.length := by split <;> omega
    rw [hp]
    have e1 : s.take pos = s.take (min pos s.length) := by
      rcases Nat.le_total pos s.length with h | h
      · rw [Nat.min_eq_left h]
      · rw [Nat.min_eq_right h, List.take_of_length_le h, List.take_of_length_le (Nat.le_refl _)]
    have e2 : s.drop pos = s.drop (min pos s.length) := by
      rcases Nat.le_total pos s.length with h | h
      · rw [Nat.min_eq_left h]
      · rw [Nat.min_eq_right h, List.drop_of_length_le h, List.drop_of_length_le (Nat.le_refl _)]
    rw [e1, e2]
    have hq : min pos s.length ≤ s.length := Nat.min_le_right _ _
    generalize min pos s.length = q at hq
    simp only []
    rw [readAt_ok s (by omega), readAt_ok s (by omega), List.take_of_length_le (l := s.drop q) (by simp)]
    have := three_copies (s.take q) what (s.drop q)
    rw [List.length_take, List.length_drop, Nat.min_eq_left hq] at this
    rw [show s.length + what.length = q + what.length + (s.length - q) by omega]
    exact this

/-- **C82 (partial).** `replace` replaces `size` characters (those that exist) by the text, unless `pos + size` overflows.
Missing: sizes near `2^64`, see the violation. -/
theorem C82_replace_partial (s : Bytes) (pos size : Nat) (what : Bytes) (hs : min pos s.length + size < 2 ^ 64)
    (hl : s.length + what.length < 2 ^ 64) :
    Str.replace s pos size what = .ok (s.take pos ++ (what ++ s.drop (pos + size))) := by
  unfold Str.replace
  have hp : (if pos > s.length then s.length else pos) = min pos s.length := by split <;> omega
  simp only [hp]
  have e1 : s.take pos = s.take (min pos s.length) := by
    rcases Nat.le_total pos s.length with h | h
    · rw [Nat.min_eq_left h]
    · rw [Nat.min_eq_right h, List.take_of_length_le h, List.take_of_length_le (Nat.le_refl _)]
  have e2 : s.drop (pos + size) = s.drop (min pos s.length + size) := by
    rcases Nat.le_total pos s.length with h | h
    · rw [Nat.min_eq_left h]
    · rw [Nat.min_eq_right h, List.drop_of_length_le (by omega), List.drop_of_length_le (by omega)]
  have hq : min pos s.length ≤ s.length := Nat.min_le_right _ _
  rw [e1, e2]
  generalize min pos s.length = q at hq hs
  have ha : add64 q size = q + size := by unfold add64; exact Nat.mod_eq_of_lt hs
  rw [ha]
  have hz : ∃ z, (if q + size > s.length then s.length - q else size) = z ∧ q + z ≤ s.length ∧ s.drop (q + size) = s.drop (q + z) := by
    split
    · exact ⟨_, rfl, by omega, by rw [List.drop_of_length_le (by omega), List.drop_of_length_le (by omega)]⟩
    · exact ⟨_, rfl, by omega, rfl⟩
  obtain ⟨z, hz1, hz2, hz3⟩ := hz
  rw [hz1, hz3]
  have ha : add64 q z = q + z := by unfold add64; exact Nat.mod_eq_of_lt (by omega)
  have hb : sub64 (s.length - q) z = s.length - q - z := by unfold sub64; omega
  have hc : sub64 (s.length + what.length) z = q + what.length + (s.length - (q + z)) := by unfold sub64; omega
  rw [ha, hb, hc, readAt_ok s (by omega), readAt_ok s (by omega),
    List.take_of_length_le (l := s.drop (q + z)) (by simp; omega)]
  have := three_copies (s.take q) what (s.drop (q + z))
  rw [List.length_take, List.length_drop, Nat.min_eq_left hq] at this
  exact this

example : Str.replace [97, 98, 99, 100] 1 2 [120] = .ok [97, 120, 100] := by decide +kernel

/-- **C82, violation.** "Replace all from position 1": with the size `npos` the sum overflows and the whole string is appended
instead. -/
theorem C82_violation_overflow : Str.replace [97, 98, 99] 1 (2 ^ 64 - 1) [120] = .ok [97, 120, 97, 98, 99] := by decide +kernel

theorem concatLoop_ok (l : List Bytes) : ∀ pre : Bytes,
    concatLoop (pre ++ List.replicate (l.map List.length).sum 0) pre.length l = .ok (pre ++ l.flatten) := by
  induction l with
  | nil => intro pre; simp [concatLoop]
  | cons x l ih =>
    intro pre
    rw [concatLoop, List.map_cons, List.sum_cons, ← List.replicate_append_replicate, writeAt_ok pre _ _ x (by simp)]
    show concatLoop (pre ++ (x ++ _)) _ l = _
    have := ih (pre ++ x)
    rw [List.length_append, List.append_assoc] at this
    rw [this]; simp

/-- **C82.** The concatenating constructor. -/
theorem C82_concat (l : List Bytes) : Str.concat l = .ok l.flatten := concatLoop_ok l []

/-- **C82.** `operator[]` gives the character at the position and zero behind the end. -/
theorem C82_char (s : Bytes) (pos : Nat) :
    (∀ pre c post, s = pre ++ c :: post → pre.length = pos → Str.charAt s pos = c) ∧ (s.length ≤ pos → Str.charAt s pos = 0) := by
  unfold Str.charAt
  refine ⟨fun pre c post h hp => ?_, fun h => if_pos h⟩
  subst h; subst hp
  rw [if_neg (by simp)]
  simp

example : Str.charAt (ascii "abc") 1 = 98 ∧ Str.charAt (ascii "abc") 3 = 0 := by decide +kernel

/-- **C82.** `left` and `right` are the prefix and the suffix of the length, the whole string when it is shorter. -/
theorem C82_left_right (s : Bytes) (n : Nat) :
    Str.left s n = s.take n ∧ Str.right s n = s.drop (s.length - n) ∧ (Str.left s n).length = min n s.length ∧
      (Str.right s n).length = min n s.length := by
  have h2 : Str.right s n = s.drop (s.length - n) := by
    unfold Str.right
    simp only [substr]
    split
    · rw [show s.length - s.length = 0 by omega, show s.length - n = 0 by omega]; simp
    · rw [List.take_of_length_le]; simp; omega
  refine ⟨rfl, h2, ?_, ?_⟩
  · simp [Str.left, substr]
  · rw [h2, List.length_drop]; omega

end Imt.Props
