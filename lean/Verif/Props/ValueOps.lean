import Verif.Model.ValueOps
import Verif.Lemmas.ArrayB
import Verif.Spec.ListOps
import Mathlib.Data.List.Basic
import Mathlib.Tactic.ByContra
/-!
# C35–C39, C75: operations of `Value` on arrays
-/
namespace Imt.Props
open Imt Imt.VOps Imt.ArrB Imt.Spec

variable {α : Type}

theorem items_length (u : α) (a : Arr α) : (a.items u).length = a.size := by simp [Arr.items]

theorem items_get (u : α) (a : Arr α) (i : Nat) (h : i < a.size) : (a.items u)[i]? = some (a.item u i) := by
  simp [Arr.items, h]

theorem items_arr (u : α) (l : List α) : (Arr.arr l).items u = l := by
  apply List.ext_getElem?
  intro i
  by_cases h : i < l.length
  · rw [items_get u (.arr l) i h, List.getElem?_eq_getElem h]
    simp [Arr.item, List.getElem?_eq_getElem h]
  · rw [List.getElem?_eq_none (by rw [items_length]; show l.length ≤ i; omega), List.getElem?_eq_none (by omega)]

theorem size_mkSub (a : Arr α) (s n : Nat) : (mkSub a s n).size = n := by cases a <;> rfl

theorem item_mkSub (u : α) (a : Arr α) (s n i : Nat) : (mkSub a s n).item u i = a.item u (s + i) := by
  cases a with
  | arr l => rfl
  | sub q t m =>
    show q.item u (s + t + i) = q.item u (t + (s + i))
    congr 1; omega

theorem items_mkSub (u : α) (a : Arr α) (s n : Nat) (h : s + n ≤ a.size) :
    (mkSub a s n).items u = ((a.items u).drop s).take n := by
  apply List.ext_getElem?
  intro i
  by_cases hi : i < n
  · rw [items_get u _ i (by rw [size_mkSub]; exact hi), item_mkSub, List.getElem?_take, if_pos hi, List.getElem?_drop,
      items_get u a _ (by omega)]
  · rw [List.getElem?_eq_none (by rw [items_length, size_mkSub]; omega), List.getElem?_take, if_neg hi]

theorem sliceLoop_eq (u : α) (a : Arr α) : ∀ n x, x + n ≤ a.size → sliceLoop u a n x = ((a.items u).drop x).take n
  | 0, x, _ => by simp [sliceLoop]
  | n + 1, x, h => by
    have hx : x < (a.items u).length := by rw [items_length]; omega
    rw [sliceLoop, sliceLoop_eq u a n (x + 1) (by omega), List.drop_eq_getElem_cons hx, List.take_succ_cons]
    congr 1
    have := items_get u a x (by omega)
    rw [List.getElem?_eq_getElem hx] at this
    exact (Option.some.inj this).symm

theorem ofItems_def (isDef : α → Bool) (u : α) (l : List α) (h : ∀ v ∈ l, isDef v = true) : (ofItems isDef l).items u = l := by
  rw [ofItems, items_arr, List.filter_eq_self.mpr h]

theorem slicePP_eq (isDef : α → Bool) (u : α) (a : Arr α) (hd : ∀ v ∈ a.items u, isDef v = true) (start en : Int)
    (hs : 0 ≤ start) (he : 0 ≤ en) : (slicePP isDef u a start en).items u = window (a.items u) start en := by
  have hw : window (a.items u) start en = ((a.items u).take (min en.toNat a.size)).drop (min start.toNat a.size) := by
    simp only [window, clampIdx, items_length, if_neg (show ¬ start < 0 by omega), if_neg (show ¬ en < 0 by omega)]
  rw [hw]
  unfold slicePP
  by_cases h : start ≥ en ∨ start ≥ a.size
  · rw [if_pos h, items_arr]
    symm
    apply List.drop_eq_nil_of_le
    rw [List.length_take, items_length]
    omega
  · rw [if_neg h]
    have hx : start.toNat + ((if en ≥ (a.size : Int) then (a.size : Int) else en) - start).toNat = min en.toNat a.size := by
      split <;> omega
    have hlt : start.toNat ≤ a.size := by omega
    simp only
    rw [sliceLoop_eq u a _ _ (by rw [hx]; omega), ofItems_def]
    · rw [List.drop_take]
      congr 1
      · omega
      · congr 1; omega
    · intro v hv
      exact hd v (List.mem_of_mem_drop (List.mem_of_mem_take hv))

theorem sliceP_eq (isDef : α → Bool) (u : α) (a : Arr α) (hd : ∀ v ∈ a.items u, isDef v = true) (start en : Int)
    (hs : 0 ≤ start) (he : -2 ^ 63 < en) :
    ∃ r, sliceP isDef u a start en = .ok r ∧ r.items u = window (a.items u) start en := by
  unfold sliceP
  by_cases h : en < 0
  · rw [if_pos h, if_neg (by omega)]
    by_cases h2 : -en ≥ a.size
    · rw [if_pos h2]
      refine ⟨_, rfl, ?_⟩
      have hc : clampIdx (a.items u).length en = 0 := by rw [clampIdx, if_pos h, items_length]; omega
      rw [items_arr, window, hc]
      simp
    · rw [if_neg h2]
      refine ⟨_, rfl, ?_⟩
      rw [slicePP_eq isDef u a hd start _ hs (by omega)]
      simp only [window]
      congr 2
      simp only [clampIdx, items_length, if_pos h, if_neg (show ¬ (a.size : Int) + en < 0 by omega)]
      omega
  · rw [if_neg h]
    exact ⟨_, rfl, slicePP_eq isDef u a hd start en hs (by omega)⟩

/-- C35 (partial): the result of `slice` holds the items of the window, as JavaScript defines it, when `start` is not
negative or `end` reaches the end. Missing: a negative `start` together with a smaller `end` (`C35_violation_negative`),
undefined items (`C35_violation_undefined`), and the smallest `Int`, whose negation is undefined (`C35_violation_min`). -/
theorem C35_slice_partial (isDef : α → Bool) (u : α) (a : Arr α) (hd : ∀ v ∈ a.items u, isDef v = true) (start en : Int)
    (hs : -2 ^ 63 < start) (he : -2 ^ 63 < en) (h : 0 ≤ start ∨ a.size ≤ en) :
    ∃ r, slice isDef u a start en = .ok r ∧ r.items u = window (a.items u) start en := by
  unfold slice
  by_cases h0 : a.size = 0
  · rw [if_pos h0]
    refine ⟨_, rfl, ?_⟩
    have : a.items u = [] := List.length_eq_zero_iff.mp (by rw [items_length]; exact h0)
    rw [this, items_arr]; simp [window]
  · rw [if_neg h0]
    by_cases hn : start < 0
    · rw [if_pos hn, if_neg (by omega)]
      have he' : (a.size : Int) ≤ en := by omega
      have hce : clampIdx (a.items u).length en = a.size := by
        rw [clampIdx, if_neg (by omega), items_length]; omega
      by_cases h2 : -start ≥ a.size
      · rw [if_pos h2]
        refine ⟨_, rfl, ?_⟩
        rw [window, hce, clampIdx, if_pos hn, items_length, show ((a.size : Int) + start).toNat = 0 by omega, List.drop_zero,
          List.take_of_length_le (by rw [items_length]; exact Nat.le_refl _)]
      · rw [if_neg h2]
        obtain ⟨r, hr, hi⟩ := sliceP_eq isDef u a hd (a.size + start) a.size (by omega) (by omega)
        refine ⟨r, hr, ?_⟩
        rw [hi]
        have h4 : clampIdx (a.items u).length (a.size : Int) = a.size := by
          rw [clampIdx, if_neg (by omega), items_length]; omega
        have h5 : clampIdx (a.items u).length ((a.size : Int) + start) = clampIdx (a.items u).length start := by
          simp only [clampIdx, items_length, if_pos hn, if_neg (show ¬ (a.size : Int) + start < 0 by omega)]
          omega
        rw [window, window, hce, h4, h5]
    · rw [if_neg hn]
      exact sliceP_eq isDef u a hd start en (by omega) he

/-- C35: `slice(start)` is always right, apart from undefined items. -/
theorem C35_slice_from (isDef : α → Bool) (u : α) (a : Arr α) (hd : ∀ v ∈ a.items u, isDef v = true) (start : Int)
    (hs : -2 ^ 63 < start) (hz : a.size < 2 ^ 63) :
    ∃ r, slice1 isDef u a start = .ok r ∧ r.items u = (a.items u).drop (clampIdx a.size start) := by
  obtain ⟨r, hr, hi⟩ := C35_slice_partial isDef u a hd start a.size hs (by omega) (.inr (by omega))
  refine ⟨r, hr, ?_⟩
  rw [hi, window, items_length]
  congr 1
  apply List.take_of_length_le
  rw [clampIdx, if_neg (by omega), items_length]
  omega

example : slice Option.isSome none (.arr [some 1, some 2, some 3]) 1 (-1) = .ok (.arr [some 2]) := by decide +kernel

/-- C35 is false: with a negative start the end is ignored. -/
theorem C35_violation_negative : ∃ r, slice Option.isSome none (.arr [some 1, some 2, some 3]) (-2) 2 = .ok r ∧
    r.items none = [some 2, some 3] ∧ window [some 1, some 2, some 3] (-2) 2 = [some 2] :=
  ⟨.arr [some 2, some 3], by decide +kernel, by decide +kernel, by decide +kernel⟩

/-- C35 is false: a start before the beginning gives the whole array, whatever the end. -/
theorem C35_violation_before : ∃ r, slice Option.isSome none (.arr [some 1, some 2, some 3]) (-5) 0 = .ok r ∧
    r.items none = [some 1, some 2, some 3] ∧ window [some 1, some 2, some 3] (-5) 0 = [] :=
  ⟨.arr [some 1, some 2, some 3], by decide +kernel, by decide +kernel, by decide +kernel⟩

/-- C35 is false: undefined items of the window are dropped. -/
theorem C35_violation_undefined : ∃ r, slice Option.isSome none (.arr [some 1, none, some 3]) 0 2 = .ok r ∧
    r.items none = [some 1] ∧ window [some 1, none, some 3] 0 2 = [some 1, none] :=
  ⟨.arr [some 1], by decide +kernel, by decide +kernel, by decide +kernel⟩

/-- C35 is false: negating the smallest index is undefined behaviour. -/
theorem C35_violation_min : slice Option.isSome none (.arr [some 1]) (-2 ^ 63) 1 = .ub := by decide +kernel

theorem splitPos_ok (u : α) (a : Arr α) (pos : Nat) :
    ((splitPos a pos).1).items u = (a.items u).take (min pos a.size) ∧
    ((splitPos a pos).2).items u = (a.items u).drop (min pos a.size) := by
  unfold splitPos
  by_cases h : pos < a.size
  · rw [if_pos h]
    constructor
    · rw [items_mkSub u a 0 pos (by omega)]
      rw [List.drop_zero]; congr 1; omega
    · rw [items_mkSub u a pos _ (by omega), List.take_of_length_le (by rw [List.length_drop, items_length]; exact Nat.le_refl _)]
      congr 1; omega
  · rw [if_neg h]
    constructor
    · rw [List.take_of_length_le]; rw [items_length]; omega
    · rw [items_arr, List.drop_eq_nil_of_le]; rw [items_length]; omega

/-- C36 (partial), arrays and windows of arrays with less than 2^31 items: the parts are the first and the remaining items,
the left one has `pos` items, or all but `-pos`, capped. Missing: larger arrays (`C36_violation_large`). -/
theorem C36_array_partial (u : α) (a : Arr α) (pos : Int) (hp : -2 ^ 31 ≤ pos) (hp' : pos < 2 ^ 31) (hz : a.size < 2 ^ 31) :
    ∃ l r, splitAt a pos = .ok (l, r) ∧ l.items u ++ r.items u = a.items u ∧ l.size = clampIdx a.size pos := by
  have key : ∀ (n : Nat) (l r : Arr α), n ≤ a.size → l.items u = (a.items u).take n → r.items u = (a.items u).drop n →
      l.items u ++ r.items u = a.items u ∧ l.size = n := by
    intro n l r hn h1 h2
    refine ⟨by rw [h1, h2, List.take_append_drop], ?_⟩
    rw [← items_length u l, h1, List.length_take, items_length]; omega
  unfold splitAt
  by_cases h1 : pos > 0
  · rw [if_pos h1]
    obtain ⟨e1, e2⟩ := splitPos_ok u a pos.toNat
    refine ⟨(splitPos a pos.toNat).1, (splitPos a pos.toNat).2, rfl, ?_⟩
    rw [clampIdx, if_neg (by omega)]
    exact key _ _ _ (by omega) e1 e2
  · rw [if_neg h1]
    by_cases h2 : pos < 0
    · rw [if_pos h2]
      have hw : wrap32 a.size = a.size := by unfold wrap32; omega
      simp only [hw]
      rw [if_neg (by omega)]
      rw [clampIdx, if_pos h2]
      by_cases h3 : (a.size : Int) + pos > 0
      · rw [if_pos h3]
        obtain ⟨e1, e2⟩ := splitPos_ok u a ((a.size : Int) + pos).toNat
        refine ⟨(splitPos a ((a.size : Int) + pos).toNat).1, (splitPos a ((a.size : Int) + pos).toNat).2, rfl, ?_⟩
        rw [Nat.min_eq_left (by omega)] at e1 e2
        exact key _ _ _ (by omega) e1 e2
      · rw [if_neg h3]
        refine ⟨_, _, rfl, ?_⟩
        rw [show ((a.size : Int) + pos).toNat = 0 by omega]
        exact key 0 _ _ (by omega) (by rw [items_arr]; simp) (by simp)
    · rw [if_neg h2]
      refine ⟨_, _, rfl, ?_⟩
      rw [clampIdx, if_neg h2, show min pos.toNat a.size = 0 by omega]
      exact key 0 _ _ (by omega) (by rw [items_arr]; simp) (by simp)

example : ∃ l r, splitAt (.arr [1, 2, 3]) (-1) = .ok (l, r) ∧ l.items 0 = [1, 2] ∧ r.items 0 = [3] :=
  ⟨.sub (.arr [1, 2, 3]) 0 2, .sub (.arr [1, 2, 3]) 2 1, by decide +kernel, by decide +kernel, by decide +kernel⟩

/-- C36 is false for an array of 2^31 items: every negative position overflows. -/
theorem C36_violation_large (a : Arr α) (hz : a.size = 2 ^ 31) (pos : Int) (hp : pos < 0) : splitAt a pos = .ub := by
  unfold splitAt
  rw [if_neg (by omega), if_pos hp]
  have hw : wrap32 a.size = -2 ^ 31 := by unfold wrap32; omega
  simp only [hw]
  rw [if_pos (by omega)]

/-- The text of a part; the undefined value has none. -/
def partText : Option Bytes → Bytes := fun o => o.getD []

theorem sub64_eq (a b : Nat) (h : b ≤ a) (h' : a < 2 ^ 63) : sub64 a b = a - b := by unfold sub64; omega

theorem low32_le (n : Nat) : low32 n ≤ n := by unfold low32; omega

theorem pair_text (s : Bytes) (n q : Nat) (x : Option Bytes × Option Bytes)
    (he : x = (some (substr s 0 n), some (substr s n q))) : partText x.1 = s.take n ∧ partText x.2 = (s.drop n).take q := by
  rw [he]
  exact ⟨rfl, rfl⟩

theorem strSplitPos_lt (s : Bytes) (n : Nat) (h : low32 n < s.length) :
    strSplitPos s n = (some (substr s 0 n), some (substr s n (sub64 s.length n))) := by
  unfold strSplitPos
  exact if_pos h

theorem strSplitPos_ge (s : Bytes) (n : Nat) (h : ¬ low32 n < s.length) : strSplitPos s n = (some s, none) := by
  unfold strSplitPos
  exact if_neg h

theorem take_sub64 (s : Bytes) (n : Nat) (hz : s.length < 2 ^ 63) : (s.drop n).take (sub64 s.length n) = s.drop n := by
  by_cases hl : n ≤ s.length
  · rw [sub64_eq _ _ hl hz]
    apply List.take_of_length_le
    rw [List.length_drop]
    exact Nat.le_refl _
  · rw [List.drop_eq_nil_of_le (Nat.le_of_not_le hl), List.take_nil]

theorem strSplitPos_ok (s : Bytes) (n : Nat) (hz : s.length < 2 ^ 63) :
    partText (strSplitPos s n).1 = s.take n ∧ partText (strSplitPos s n).2 = s.drop n := by
  by_cases h : low32 n < s.length
  · have := pair_text s n _ _ (strSplitPos_lt s n h)
    rw [take_sub64 s n hz] at this
    exact this
  · have hle : s.length ≤ n := Nat.le_trans (Nat.le_of_not_lt h) (low32_le n)
    rw [strSplitPos_ge s n h]
    exact ⟨(List.take_of_length_le hle).symm, (List.drop_eq_nil_of_le hle).symm⟩

theorem parts_ok (s : Bytes) (n : Nat) (p : Option Bytes × Option Bytes) (h1 : partText p.1 = s.take n)
    (h2 : partText p.2 = s.drop n) : partText p.1 ++ partText p.2 = s ∧ (partText p.1).length = min n s.length := by
  rw [h1, h2, List.take_append_drop, List.length_take]
  exact ⟨rfl, rfl⟩

/-- C36 (partial), strings shorter than 2^31: the same for every position but zero. Missing: `pos = 0`, where both claims
cannot be had (`C36_violation_string_zero`). -/
theorem C36_string_partial (s : Bytes) (pos : Int) (h0 : pos ≠ 0) (hz : s.length < 2 ^ 31) :
    partText (strSplitAt s pos).1 ++ partText (strSplitAt s pos).2 = s ∧
    (partText (strSplitAt s pos).1).length = clampIdx s.length pos := by
  by_cases h1 : pos > 0
  · have hc : clampIdx s.length pos = min pos.toNat s.length := if_neg (by omega)
    have hs : strSplitAt s pos = strSplitPos s pos.toNat := by unfold strSplitAt; exact if_pos h1
    obtain ⟨e1, e2⟩ := strSplitPos_ok s pos.toNat (by omega)
    rw [hs, hc]
    exact parts_ok s _ _ e1 e2
  · have hneg : pos < 0 := by omega
    have hc : clampIdx s.length pos = ((s.length : Int) + pos).toNat := if_pos hneg
    have hw : wrap32 s.length = s.length := by unfold wrap32; omega
    have hs : strSplitAt s pos = if (s.length : Int) + pos > 0 then strSplitPos s ((s.length : Int) + pos).toNat
        else (none, some s) := by
      unfold strSplitAt
      rw [if_neg h1, if_pos hneg, hw]
    by_cases h3 : (s.length : Int) + pos > 0
    · rw [if_pos h3] at hs
      obtain ⟨e1, e2⟩ := strSplitPos_ok s ((s.length : Int) + pos).toNat (by omega)
      have := parts_ok s _ _ e1 e2
      rw [Nat.min_eq_left (by omega)] at this
      rw [hs, hc]
      exact this
    · rw [if_neg h3] at hs
      have hq : ((s.length : Int) + pos).toNat = 0 := by omega
      rw [hs, hc, hq]
      exact ⟨rfl, rfl⟩

example : strSplitAt [97, 98, 99] (-1) = (some [97, 98], some [99]) := by decide +kernel

/-- C36 is false: splitting a string at 0 puts everything to the left. -/
theorem C36_violation_string_zero (s : Bytes) : strSplitAt s 0 = (some s, none) := by simp [strSplitAt]

/-- C75 (partial): reading an array at or above its size gives the undefined value – for the arrays that own their items.
Missing: windows (`C75_violation`). -/
theorem C75_bounds_partial (u : α) (l : List α) (i : Nat) (h : (Arr.arr l).size ≤ i) : (Arr.arr l).item u i = u := by
  have : l.length ≤ i := h
  simp [Arr.item, List.getElem?_eq_none this]

example : (Arr.arr [1, 2]).item 0 2 = 0 := by decide

/-- C75 is false: the left part of a split shows the items of the right part behind its end, for every array and position. -/
theorem C75_violation (u : α) (l : List α) (pos i : Nat) (h0 : 0 < pos) (hi : pos + i < l.length) :
    ∃ a b, splitAt (.arr l) pos = .ok (a, b) ∧ a.size = pos ∧ a.item u (pos + i) = l[pos + i] := by
  refine ⟨.sub (.arr l) 0 pos, .sub (.arr l) pos (l.length - pos), ?_, rfl, ?_⟩
  · unfold splitAt
    rw [if_pos (by omega)]
    simp only [splitPos, Int.toNat_natCast]
    rw [if_pos (show pos < (Arr.arr l).size from (show pos < l.length by omega))]
    rfl
  · simp [Arr.item, List.getElem?_eq_getElem hi]

example : ∃ a b, splitAt (.arr [1, 2, 3]) 1 = .ok (a, b) ∧ a.size = 1 ∧ a.item 0 2 = 3 :=
  C75_violation 0 [1, 2, 3] 1 1 (by decide) (by decide)

theorem rep_foldl_add {s : AB α} {b l : List α} (h : Rep s b l) : ∀ (vs : List α), Rep (vs.foldl add s) b (l ++ vs)
  | [] => by simpa using h
  | v :: vs => by
    have := rep_foldl_add (rep_add h v) vs
    simpa using this

theorem foldl_add_map {β : Type} (f : β → α) (s : AB α) : ∀ (vs : List β), vs.foldl (fun o x => add o (f x)) s = (vs.map f).foldl add s
  | [] => rfl
  | v :: vs => by
    simp only [List.foldl_cons, List.map_cons]
    exact foldl_add_map f _ vs

theorem foldl_add_off : ∀ (vs : List α) (s : AB α), (vs.foldl add s).offset = s.offset ∧ (vs.foldl add s).base = s.base
  | [], _ => ⟨rfl, rfl⟩
  | v :: vs, s => by
    have := foldl_add_off vs (add s v)
    exact ⟨this.1, this.2⟩

/-- A builder started empty commits to the defined items. -/
theorem commit_new (isDef : α → Bool) (u : α) (vs : List α) : commit isDef u (vs.foldl add new) = .ok (vs.filter isDef) := by
  have := rep_commit_def (rep_foldl_add rep_new vs) isDef u (by simp)
  simpa using this

/-- C37: pushing a defined value appends it. -/
theorem C37_push (isDef : α → Bool) (u : α) (a : Arr α) (v : α) (hv : isDef v = true) :
    ∃ b, push isDef u a v = .ok b ∧ b.items u = a.items u ++ [v] := by
  unfold push
  rw [rep_commit (rep_add (rep_ofBase (a.items u)) v)]
  refine ⟨_, rfl, ?_⟩
  rw [items_arr, if_pos (by simp [dirty, add])]
  show (a.items u ++ [v]).take (a.items u).length ++ ((a.items u ++ [v]).drop (a.items u).length).filter isDef = _
  simp [hv]

/-- C37: popping gives the last item and leaves the others. -/
theorem C37_pop (isDef : α → Bool) (u : α) (a : Arr α) (h : a.items u ≠ []) :
    ∃ b, pop isDef u a = .ok ((a.items u).getLast h, b) ∧ b.items u = (a.items u).dropLast := by
  have hl := items_length u a
  have hpos : 0 < (a.items u).length := List.length_pos_iff.mpr h
  have hg : get u (ofBase (a.items u)) (a.size - 1) = .ok ((a.items u).getLast h) := by
    rw [rep_get (rep_ofBase (a.items u)) u (pos := a.size - 1) (by omega)]
    simp only [List.getLast_eq_getElem, hl]
  have he : erase u (ofBase (a.items u)) (a.size - 1) = .ok ⟨a.items u, [], a.size - 1⟩ := by
    have hext : extendChanges u (ofBase (a.items u)) (a.size - 1) = ⟨a.items u, [some ((a.items u).getLast h)], a.size - 1⟩ := by
      obtain ⟨hr, ho⟩ := (rep_ofBase (a.items u)).extend u (a.size - 1)
      have hc := hr.changes
      have hb := hr.1
      have hoff : (extendChanges u (ofBase (a.items u)) (a.size - 1)).offset = a.size - 1 := by
        unfold extendChanges
        rw [if_pos (show a.size - 1 < (ofBase (a.items u)).offset from (show a.size - 1 < (a.items u).length by omega))]
      rw [hoff, List.drop_eq_getElem_cons (show a.size - 1 < (a.items u).length by omega),
        List.drop_eq_nil_of_le (by omega)] at hc
      generalize extendChanges u (ofBase (a.items u)) (a.size - 1) = e at *
      obtain ⟨e1, e2, e3⟩ := e
      simp only at hb hoff hc
      subst hb hoff hc
      simp only [List.map_cons, List.map_nil, List.getLast_eq_getElem, hl]
    unfold erase
    rw [hext]
    simp [vecErase]
  unfold pop
  rw [if_neg (by omega)]
  simp only [hg, he, Res.bind_ok]
  have hR : Rep (⟨a.items u, [], a.size - 1⟩ : AB α) (a.items u) ((a.items u).take (a.size - 1)) :=
    ⟨rfl, by simp only; omega, by simp⟩
  rw [rep_commit hR]
  refine ⟨_, rfl, ?_⟩
  rw [items_arr, if_pos]
  · simp only [List.take_take, Nat.min_self]
    rw [List.drop_eq_nil_of_le (by rw [List.length_take]; omega)]
    simp [List.dropLast_eq_take, hl]
  · simp only [dirty, Bool.or_eq_true, bne_iff_ne]
    left; omega

/-- C37: pop undoes push. -/
theorem C37_push_pop (isDef : α → Bool) (u : α) (a : Arr α) (v : α) (hv : isDef v = true) :
    ∃ b c, push isDef u a v = .ok b ∧ pop isDef u b = .ok (v, c) ∧ c.items u = a.items u := by
  obtain ⟨b, hb, hi⟩ := C37_push isDef u a v hv
  obtain ⟨c, hc, hci⟩ := C37_pop isDef u b (by rw [hi]; simp)
  refine ⟨b, c, hb, ?_, ?_⟩
  · rw [hc]; congr 2; simp [hi]
  · rw [hci, hi]; simp

/-- C37: unshifting puts the defined values in front; the array may not hold undefined items. -/
theorem C37_unshift_partial (isDef : α → Bool) (u : α) (a : Arr α) (vs : List α) (hv : ∀ v ∈ vs, isDef v = true)
    (hd : ∀ v ∈ a.items u, isDef v = true) : ∃ b, unshift isDef u a vs = .ok b ∧ b.items u = vs ++ a.items u := by
  unfold unshift
  rw [← List.foldl_append, commit_new]
  refine ⟨_, rfl, ?_⟩
  rw [items_arr, List.filter_eq_self.mpr]
  intro v hm
  rcases List.mem_append.1 hm with h | h
  · exact hv v h
  · exact hd v h

/-- C37: shifting gives the first item and leaves the others (no undefined items allowed). -/
theorem C37_shift_partial (isDef : α → Bool) (u : α) (a : Arr α) (hd : ∀ v ∈ a.items u, isDef v = true) (h : a.items u ≠ [])
    (hz : a.size < 2 ^ 63) : ∃ b, shift isDef u a = .ok ((a.items u).head h, b) ∧ b.items u = (a.items u).tail := by
  have hl := items_length u a
  have hpos : 0 < (a.items u).length := List.length_pos_iff.mpr h
  obtain ⟨r, hr, hi⟩ := C35_slice_from isDef u a hd 1 (by omega) hz
  unfold shift
  rw [hr]
  refine ⟨r, ?_, ?_⟩
  · simp only [Res.bind_ok, Res.pure_eq]
    congr 2
    have := items_get u a 0 (by omega)
    rw [List.head_eq_getElem]
    rw [List.getElem?_eq_getElem hpos] at this
    exact (Option.some.inj this).symm
  · rw [hi, clampIdx, if_neg (by omega)]
    rw [show min (1 : Int).toNat a.size = 1 by simp; omega, List.drop_one]

/-- C37: shift undoes unshift. -/
theorem C37_unshift_shift_partial (isDef : α → Bool) (u : α) (a : Arr α) (v : α) (hv : isDef v = true)
    (hd : ∀ v ∈ a.items u, isDef v = true) (hz : a.size + 1 < 2 ^ 63) :
    ∃ b c, unshift isDef u a [v] = .ok b ∧ shift isDef u b = .ok (v, c) ∧ c.items u = a.items u := by
  obtain ⟨b, hb, hi⟩ := C37_unshift_partial isDef u a [v] (by simpa using hv) hd
  have hl : b.size = a.size + 1 := by rw [← items_length u b, hi]; simp [items_length]
  obtain ⟨c, hc, hci⟩ := C37_shift_partial isDef u b (by
    rw [hi]; intro x hx
    rcases List.mem_append.1 hx with h | h
    · rw [List.mem_singleton] at h; subst h; exact hv
    · exact hd x h) (by rw [hi]; simp) (by omega)
  refine ⟨b, c, hb, ?_, ?_⟩
  · rw [hc]; congr 2; simp [hi]
  · rw [hci, hi]; simp

example : unshift Option.isSome none (.arr [some 2]) [some 1] = .ok (.arr [some 1, some 2]) ∧
    shift Option.isSome none (.arr [some 1, some 2]) = .ok (some 1, .arr [some 2]) ∧
    push Option.isSome none (.arr [some 1]) (some 2) = .ok (.arr [some 1, some 2]) ∧
    pop Option.isSome none (.arr [some 1, some 2]) = .ok (some 2, .arr [some 1]) := by decide +kernel

/-- C37 is false with undefined items: `shift` and `unshift` lose them. -/
theorem C37_violation_undefined : shift Option.isSome none (.arr [some 1, none, some 2]) = .ok (some 1, .arr [some 2]) ∧
    unshift Option.isSome none (.arr [none]) [some 1] = .ok (.arr [some 1]) := by decide +kernel

/-- C37 is false for the undefined value: it is not pushed. -/
theorem C37_violation_push : push Option.isSome none (.arr [some 1]) none = .ok (.arr [some 1]) := by decide +kernel

theorem joinFill_length (sep : Bytes) (l : List Bytes) (h : l ≠ []) :
    (joinFill sep l).length = (l.map List.length).sum + (l.length - 1) * sep.length := by
  cases l with
  | nil => exact absurd rfl h
  | cons s r =>
    simp only [joinFill, List.length_append, List.map_cons, List.sum_cons, List.length_cons, Nat.add_sub_cancel]
    have : ∀ r : List Bytes, (r.flatMap (fun t => sep ++ t)).length = (r.map List.length).sum + r.length * sep.length := by
      intro r
      induction r with
      | nil => simp
      | cons t r ih =>
        simp only [List.flatMap_cons, List.length_append, ih, List.map_cons, List.sum_cons, List.length_cons, Nat.add_mul]
        omega
    rw [this]; omega

theorem joinFill_eq (sep : Bytes) (l : List Bytes) : joinFill sep l = sep.intercalate l := by
  cases l with
  | nil => rfl
  | cons s r =>
    induction r generalizing s with
    | nil => simp [joinFill, List.intercalate]
    | cons t r ih =>
      have := ih t
      simp only [joinFill, List.intercalate, List.flatMap_cons] at this ⊢
      rw [List.intersperse_cons_cons, List.flatten_cons, List.flatten_cons, ← this]
      simp

/-- C38 (partial): `join` of a non-empty array gives the string forms with separators between, and the size it asks for
is exactly the size it uses. `hdr`, `off` describe the memory layout. Missing: the empty array (`C38_violation_empty`). -/
theorem C38_join_partial (hdr off : Nat) (str : α → Bytes) (u : α) (a : Arr α) (sep : Bytes) (h : a.items u ≠ [])
    (ho : off ≤ hdr) (hs : (sep.intercalate ((a.items u).map str)).length + hdr + 8 < 2 ^ 63) (hz : a.size < 2 ^ 64) :
    join hdr off str u a sep = .ok (sep.intercalate ((a.items u).map str)) ∧
    joinSize sep ((a.items u).map str) = (sep.intercalate ((a.items u).map str)).length := by
  have hne : (a.items u).map str ≠ [] := by simpa using h
  have hlen := joinFill_length sep _ hne
  rw [← joinFill_eq] at hs ⊢
  have hl1 : 0 < ((a.items u).map str).length := List.length_pos_iff.mpr hne
  have hl2 : ((a.items u).map str).length < 2 ^ 64 := by rw [List.length_map, items_length]; exact hz
  have hsz : joinSize sep ((a.items u).map str) = (joinFill sep ((a.items u).map str)).length := by
    unfold joinSize
    rw [show (((a.items u).map str).length + 2 ^ 64 - 1) % 2 ^ 64 = ((a.items u).map str).length - 1 by omega, ← hlen]
    exact Nat.mod_eq_of_lt (by omega)
  refine ⟨?_, hsz⟩
  unfold join
  simp only [hsz]
  generalize joinFill sep ((a.items u).map str) = f at *
  unfold newString
  have h1 : (f.length + 1) % 2 ^ 64 = f.length + 1 := Nat.mod_eq_of_lt (by omega)
  simp only [h1]
  have h2 : (hdr + max (f.length + 1) 7) % 2 ^ 64 = hdr + max (f.length + 1) 7 := Nat.mod_eq_of_lt (by omega)
  rw [h2, if_neg (by omega), if_neg (by omega), if_neg (by omega), if_neg (by omega)]

example : join 36 32 (fun n => [48 + n]) 0 (.arr [1, 2, 3]) [44, 32] = .ok [49, 44, 32, 50, 44, 32, 51] := by decide +kernel

theorem joinSize_nil (sep : Bytes) (hp : 0 < sep.length) (hs : sep.length < 2 ^ 63) : joinSize sep [] = 2 ^ 64 - sep.length := by
  unfold joinSize
  simp only [List.map_nil, List.sum_nil, List.length_nil, Nat.zero_add]
  rw [show (2 ^ 64 - 1) % 2 ^ 64 = 2 ^ 64 - 1 from rfl, Nat.sub_mul]
  rw [show 2 ^ 64 * sep.length - 1 * sep.length = 2 ^ 64 * (sep.length - 1) + (2 ^ 64 - sep.length) by omega,
    Nat.mul_add_mod]
  exact Nat.mod_eq_of_lt (by omega)

/-- C38 is false: joining an empty array with a (short) separator writes outside of the allocated memory. -/
theorem C38_violation_empty (hdr off : Nat) (str : α → Bytes) (u : α) (sep : Bytes) (h : sep ≠ [])
    (hh : hdr < 2 ^ 16) (hs : sep.length ≤ hdr + 1) : join hdr off str u (.arr []) sep = .ub := by
  have hp : 0 < sep.length := List.length_pos_iff.mpr h
  unfold join
  rw [items_arr]
  simp only [List.map_nil, joinSize_nil sep hp (by omega)]
  unfold newString
  by_cases h1 : sep.length = 1
  · have ht : (hdr + max ((2 ^ 64 - sep.length + 1) % 2 ^ 64) 7) % 2 ^ 64 = hdr + 7 := by
      rw [h1, show (2 ^ 64 - 1 + 1) % 2 ^ 64 = 0 from rfl]; omega
    simp only [ht]
    rw [if_neg (by omega), if_pos (by omega)]
  · have ht : (hdr + max ((2 ^ 64 - sep.length + 1) % 2 ^ 64) 7) % 2 ^ 64 = hdr + 1 - sep.length := by
      rw [show (2 ^ 64 - sep.length + 1) % 2 ^ 64 = 2 ^ 64 - sep.length + 1 from Nat.mod_eq_of_lt (by omega)]
      omega
    simp only [ht]
    rw [if_neg (by omega), if_pos (by omega)]

/-- C38 is false: with a longer separator it asks for more memory than there is. -/
theorem C38_violation_long (hdr off : Nat) (str : α → Bytes) (u : α) (sep : Bytes)
    (hh : hdr < 2 ^ 16) (hs : hdr + 1 < sep.length) (hs' : sep.length < 2 ^ 62) : join hdr off str u (.arr []) sep = .err := by
  unfold join
  rw [items_arr]
  simp only [List.map_nil, joinSize_nil sep (by omega) (by omega)]
  unfold newString
  have ht : (hdr + max ((2 ^ 64 - sep.length + 1) % 2 ^ 64) 7) % 2 ^ 64 = hdr + (2 ^ 64 - sep.length + 1) := by
    rw [show (2 ^ 64 - sep.length + 1) % 2 ^ 64 = 2 ^ 64 - sep.length + 1 from Nat.mod_eq_of_lt (by omega)]
    omega
  simp only [ht]
  rw [if_pos (by omega)]

theorem indexLoop_spec (eq : α → α → Bool) (u : α) (a : Arr α) (v : α) : ∀ n i,
    (∀ k, indexLoop eq u a v n i = some k → i ≤ k ∧ k < i + n ∧ eq (a.item u k) v = true ∧
      ∀ j, i ≤ j → j < k → eq (a.item u j) v = false) ∧
    (indexLoop eq u a v n i = none → ∀ j, i ≤ j → j < i + n → eq (a.item u j) v = false)
  | 0, i => ⟨fun k h => by simp [indexLoop] at h, fun _ j h1 h2 => by omega⟩
  | n + 1, i => by
    obtain ⟨h1, h2⟩ := indexLoop_spec eq u a v n (i + 1)
    rw [indexLoop]
    by_cases he : eq (a.item u i) v = true
    · rw [if_pos he]
      refine ⟨fun k h => ?_, fun h => by simp at h⟩
      obtain rfl := Option.some.inj h
      exact ⟨Nat.le_refl _, by omega, he, fun j h3 h4 => by omega⟩
    · rw [if_neg he]
      have he' : eq (a.item u i) v = false := by simpa using he
      refine ⟨fun k h => ?_, fun h j h3 h4 => ?_⟩
      · obtain ⟨q1, q2, q3, q4⟩ := h1 k h
        refine ⟨by omega, by omega, q3, fun j h3 h4 => ?_⟩
        by_cases hj : j = i
        · rw [hj]; exact he'
        · exact q4 j (by omega) h4
      · by_cases hj : j = i
        · rw [hj]; exact he'
        · exact h2 h j (by omega) (by omega)

/-- C39: `indexOf` gives the smallest index from `start` on that holds an equal item, and nothing exactly when there is
none. `eq` is any equality. -/
theorem C39_indexOf (eq : α → α → Bool) (u : α) (a : Arr α) (v : α) (start : Nat) :
    (∀ k, indexOf eq u a v start = some k ↔ (start ≤ k ∧ (∃ x, (a.items u)[k]? = some x ∧ eq x v = true) ∧
      ∀ j x, start ≤ j → j < k → (a.items u)[j]? = some x → eq x v = false)) ∧
    (indexOf eq u a v start = none ↔ ∀ j x, start ≤ j → (a.items u)[j]? = some x → eq x v = false) := by
  obtain ⟨h1, h2⟩ := indexLoop_spec eq u a v (a.size - start) start
  have lt_of : ∀ j x, (a.items u)[j]? = some x → j < a.size ∧ x = a.item u j := by
    intro j x h
    have hj : j < a.size := by
      by_contra hc
      rw [List.getElem?_eq_none (by rw [items_length]; omega)] at h
      exact absurd h (by simp)
    rw [items_get u a j hj] at h
    exact ⟨hj, (Option.some.inj h).symm⟩
  have hf : ∀ k, indexOf eq u a v start = some k → (start ≤ k ∧ (∃ x, (a.items u)[k]? = some x ∧ eq x v = true) ∧
      ∀ j x, start ≤ j → j < k → (a.items u)[j]? = some x → eq x v = false) := by
    intro k h
    obtain ⟨q1, q2, q3, q4⟩ := h1 k h
    refine ⟨q1, ⟨_, items_get u a k (by omega), q3⟩, fun j x hj1 hj2 hx => ?_⟩
    rw [(lt_of j x hx).2]; exact q4 j hj1 hj2
  have hn : indexOf eq u a v start = none → ∀ j x, start ≤ j → (a.items u)[j]? = some x → eq x v = false := by
    intro h j x hj hx
    obtain ⟨hl, rfl⟩ := lt_of j x hx
    exact h2 h j hj (by omega)
  refine ⟨fun k => ⟨hf k, fun ⟨g1, ⟨x, g2, g3⟩, g4⟩ => ?_⟩, hn, fun h => ?_⟩
  · cases hc : indexOf eq u a v start with
    | none => rw [hn hc k x g1 g2] at g3; exact absurd g3 (by simp)
    | some m =>
      obtain ⟨f1, ⟨y, f2, f3⟩, f4⟩ := hf m hc
      congr 1
      rcases Nat.lt_trichotomy m k with hlt | he | hlt
      · rw [g4 m y f1 hlt f2] at f3; exact absurd f3 (by simp)
      · exact he
      · rw [f4 k x g1 hlt g2] at g3; exact absurd g3 (by simp)
  · cases hc : indexOf eq u a v start with
    | none => rfl
    | some m =>
      obtain ⟨f1, ⟨y, f2, f3⟩, _⟩ := hf m hc
      rw [h m y f1 f2] at f3; exact absurd f3 (by simp)

theorem lastLoop_spec (eq : α → α → Bool) (u : α) (a : Arr α) (v : α) : ∀ n,
    (∀ k, lastLoop eq u a v n = some k → k < n ∧ eq (a.item u k) v = true ∧ ∀ j, k < j → j < n → eq (a.item u j) v = false) ∧
    (lastLoop eq u a v n = none → ∀ j, j < n → eq (a.item u j) v = false)
  | 0 => ⟨fun k h => by simp [lastLoop] at h, fun _ j h => by omega⟩
  | n + 1 => by
    obtain ⟨h1, h2⟩ := lastLoop_spec eq u a v n
    rw [lastLoop]
    by_cases he : eq (a.item u n) v = true
    · rw [if_pos he]
      refine ⟨fun k h => ?_, fun h => by simp at h⟩
      obtain rfl := Option.some.inj h
      exact ⟨by omega, he, fun j h3 h4 => by omega⟩
    · rw [if_neg he]
      have he' : eq (a.item u n) v = false := by simpa using he
      refine ⟨fun k h => ?_, fun h j h3 => ?_⟩
      · obtain ⟨q1, q2, q3⟩ := h1 k h
        refine ⟨by omega, q2, fun j h3 h4 => ?_⟩
        by_cases hj : j = n
        · rw [hj]; exact he'
        · exact q3 j h3 (by omega)
      · by_cases hj : j = n
        · rw [hj]; exact he'
        · exact h2 h j (by omega)

/-- C39: `lastIndexOf` gives the largest index below `start` that holds an equal item, and nothing exactly when there is
none. -/
theorem C39_lastIndexOf (eq : α → α → Bool) (u : α) (a : Arr α) (v : α) (start : Nat) :
    (∀ k, lastIndexOf eq u a v start = some k ↔ (k < start ∧ (∃ x, (a.items u)[k]? = some x ∧ eq x v = true) ∧
      ∀ j x, k < j → j < start → (a.items u)[j]? = some x → eq x v = false)) ∧
    (lastIndexOf eq u a v start = none ↔ ∀ j x, j < start → (a.items u)[j]? = some x → eq x v = false) := by
  obtain ⟨h1, h2⟩ := lastLoop_spec eq u a v (min start a.size)
  have lt_of : ∀ j x, (a.items u)[j]? = some x → j < a.size ∧ x = a.item u j := by
    intro j x h
    have hj : j < a.size := by
      by_contra hc
      rw [List.getElem?_eq_none (by rw [items_length]; omega)] at h
      exact absurd h (by simp)
    rw [items_get u a j hj] at h
    exact ⟨hj, (Option.some.inj h).symm⟩
  have hf : ∀ k, lastIndexOf eq u a v start = some k → (k < start ∧ (∃ x, (a.items u)[k]? = some x ∧ eq x v = true) ∧
      ∀ j x, k < j → j < start → (a.items u)[j]? = some x → eq x v = false) := by
    intro k h
    obtain ⟨q1, q2, q3⟩ := h1 k h
    refine ⟨by omega, ⟨_, items_get u a k (by omega), q2⟩, fun j x hj1 hj2 hx => ?_⟩
    obtain ⟨hl, rfl⟩ := lt_of j x hx
    exact q3 j hj1 (by omega)
  have hn : lastIndexOf eq u a v start = none → ∀ j x, j < start → (a.items u)[j]? = some x → eq x v = false := by
    intro h j x hj hx
    obtain ⟨hl, rfl⟩ := lt_of j x hx
    exact h2 h j (by omega)
  refine ⟨fun k => ⟨hf k, fun ⟨g1, ⟨x, g2, g3⟩, g4⟩ => ?_⟩, hn, fun h => ?_⟩
  · cases hc : lastIndexOf eq u a v start with
    | none => rw [hn hc k x g1 g2] at g3; exact absurd g3 (by simp)
    | some m =>
      obtain ⟨f1, ⟨y, f2, f3⟩, f4⟩ := hf m hc
      congr 1
      rcases Nat.lt_trichotomy m k with hlt | he | hlt
      · rw [f4 k x hlt g1 g2] at g3; exact absurd g3 (by simp)
      · exact he
      · rw [g4 m y hlt f1 f2] at f3; exact absurd f3 (by simp)
  · cases hc : lastIndexOf eq u a v start with
    | none => rfl
    | some m =>
      obtain ⟨f1, ⟨y, f2, f3⟩, _⟩ := hf m hc
      rw [h m y f1 f2] at f3; exact absurd f3 (by simp)

example : indexOf (· == ·) 0 (.arr [5, 7, 5, 7]) 7 2 = some 3 ∧ lastIndexOf (· == ·) 0 (.arr [5, 7, 5, 7]) 7 3 = some 1 ∧
    indexOf (· == ·) 0 (.arr [5, 7]) 9 0 = none := by decide +kernel

theorem findLoop_congr (p : α → Nat → Bool) (u : α) (a : Arr α) : ∀ n i,
    findLoop p u a n i = (List.range' i n).find? (fun k => p (a.item u k) k)
  | 0, i => rfl
  | n + 1, i => by
    rw [findLoop, List.range'_succ, List.find?_cons, findLoop_congr p u a n (i + 1)]
    cases p (a.item u i) i <;> rfl

theorem rfindLoop_congr (p : α → Nat → Bool) (u : α) (a : Arr α) : ∀ n,
    rfindLoop p u a n = (List.range n).reverse.find? (fun k => p (a.item u k) k)
  | 0 => rfl
  | n + 1 => by
    rw [rfindLoop, List.range_succ, List.reverse_append, rfindLoop_congr p u a n]
    simp only [List.reverse_cons, List.reverse_nil, List.nil_append, List.cons_append, List.find?_cons]
    cases p (a.item u n) n <;> rfl

/-- C76: `findIndex` is the first index whose item satisfies the predicate, `rfindIndex` the last one. -/
theorem C76_findIndex (p : α → Nat → Bool) (u : α) (a : Arr α) :
    findIndex p u a = (List.range a.size).find? (fun k => p (a.item u k) k) ∧
    rfindIndex p u a = (List.range a.size).reverse.find? (fun k => p (a.item u k) k) := by
  refine ⟨?_, rfindLoop_congr p u a _⟩
  rw [findIndex, findLoop_congr, List.range_eq_range']

/-- C76: `find` and `rfind` give the first and the last item that satisfies the predicate, undefined when there is none. -/
theorem C76_find (p : α → Nat → Bool) (u : α) (a : Arr α) :
    at? u a (findIndex p u a) = (((a.items u).zipIdx.find? (fun x => p x.1 x.2)).map (·.1)).getD u ∧
    at? u a (rfindIndex p u a) = (((a.items u).zipIdx.reverse.find? (fun x => p x.1 x.2)).map (·.1)).getD u := by
  have hz : (a.items u).zipIdx = (List.range a.size).map (fun i => (a.item u i, i)) := by
    apply List.ext_getElem
    · simp [items_length]
    · intro i h1 h2
      simp only [List.length_zipIdx, items_length] at h1
      have := items_get u a i h1
      rw [List.getElem?_eq_getElem (by rw [items_length]; omega)] at this
      simp only [List.getElem_zipIdx, List.getElem_map, List.getElem_range, Option.some.inj this]
      simp
  rw [(C76_findIndex p u a).1, (C76_findIndex p u a).2, hz, ← List.map_reverse, List.find?_map, List.find?_map]
  refine ⟨?_, ?_⟩
  · show at? u a (List.find? (fun k => p (a.item u k) k) _) = ((Option.map _ (List.find? (fun k => p (a.item u k) k) _)).map _).getD u
    cases (List.range a.size).find? (fun k => p (a.item u k) k) <;> rfl
  · show at? u a (List.find? (fun k => p (a.item u k) k) _) = ((Option.map _ (List.find? (fun k => p (a.item u k) k) _)).map _).getD u
    cases (List.range a.size).reverse.find? (fun k => p (a.item u k) k) <;> rfl

example : at? none (.arr [some 1, some 2, some 3]) (findIndex (fun x _ => x != some 1) none (.arr [some 1, some 2, some 3])) = some 2 ∧
    at? none (.arr [some 1, some 2, some 3]) (rfindIndex (fun x _ => x != some 3) none (.arr [some 1, some 2, some 3])) = some 2 := by
  decide +kernel

/-- C76: `reduce` combines the items from the first to the last, starting with the given value. -/
theorem C76_reduce {β : Type} (f : β → α → β) (u : α) (a : Arr α) (init : β) :
    reduce f u a init = (List.range a.size).foldl (fun acc i => f acc (a.item u i)) init := by
  have hz : a.items u = (List.range a.size).map (a.item u) := by
    apply List.ext_getElem
    · simp [items_length]
    · intro i h1 h2
      rw [items_length] at h1
      have := items_get u a i h1
      rw [List.getElem?_eq_getElem (by rw [items_length]; omega)] at this
      simp only [List.getElem_map, List.getElem_range, Option.some.inj this]
  unfold reduce
  rw [hz, List.foldl_map]

/-- C76: `reverse` keeps all items, in the opposite order (no undefined items). -/
theorem C76_reverse_partial (isDef : α → Bool) (u : α) (a : Arr α) (hd : ∀ v ∈ a.items u, isDef v = true) :
    ∃ b, reverse isDef u a = .ok b ∧ b.items u = (a.items u).reverse := by
  have hm : (List.range a.size).map (fun i => a.item u (a.size - 1 - i)) = (a.items u).reverse := by
    apply List.ext_getElem
    · simp [items_length]
    · intro i h1 h2
      simp only [List.length_map, List.length_range] at h1
      rw [List.getElem_map, List.getElem_range, List.getElem_reverse]
      have := items_get u a (a.size - 1 - i) (by omega)
      simp only [items_length]
      rw [List.getElem?_eq_getElem (by rw [items_length]; omega)] at this
      exact (Option.some.inj this).symm
  unfold VOps.reverse
  rw [foldl_add_map (fun i => a.item u (a.size - 1 - i)), hm, commit_new]
  refine ⟨_, rfl, ?_⟩
  rw [items_arr, List.filter_eq_self.mpr]
  intro v hv
  exact hd v (List.mem_reverse.1 hv)

/-- C76: `map` gives the defined results in order. -/
theorem C76_map (f : α → α) (isDef : α → Bool) (u : α) (a : Arr α) :
    ∃ b, map f isDef u a = .ok b ∧ b.items u = ((a.items u).map f).filter isDef := by
  unfold map
  rw [foldl_add_map f, commit_new]
  exact ⟨_, rfl, items_arr u _⟩

/-- C76: `filter` keeps the items that satisfy the predicate, in order (undefined items are always lost). -/
theorem C76_filter (p : α → Nat → Bool) (isDef : α → Bool) (u : α) (a : Arr α) :
    (VOps.filter p isDef u a).items u = (((a.items u).zipIdx.filter (fun x => p x.1 x.2)).map (·.1)).filter isDef := by
  have hz : (a.items u).zipIdx = (List.range a.size).map (fun i => (a.item u i, i)) := by
    apply List.ext_getElem
    · simp [items_length]
    · intro i h1 h2
      simp only [List.length_zipIdx, items_length] at h1
      have := items_get u a i h1
      rw [List.getElem?_eq_getElem (by rw [items_length]; omega)] at this
      simp only [List.getElem_zipIdx, List.getElem_map, List.getElem_range, Option.some.inj this]
      simp
  unfold VOps.filter ofItems
  rw [items_arr, hz]
  congr 1
  rw [List.filter_map, List.map_map]
  rfl

example : VOps.filter (fun x _ => x != some 2) Option.isSome none (.arr [some 1, some 2, some 3]) = .arr [some 1, some 3] ∧
    reverse Option.isSome none (.arr [some 1, some 2]) = .ok (.arr [some 2, some 1]) ∧
    findIndex (fun x _ => x == some 2) none (.arr [some 1, some 2, some 2]) = some 1 ∧
    rfindIndex (fun x _ => x == some 2) none (.arr [some 1, some 2, some 2]) = some 2 := by decide +kernel

/-- C76 is false with undefined items: `reverse` drops them. -/
theorem C76_violation_reverse : reverse Option.isSome none (.arr [some 1, none]) = .ok (.arr [some 1]) := by decide +kernel

end Imt.Props
