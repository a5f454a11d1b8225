import Verif.Model.ArrayB
import Verif.Spec.ListOps
/-!
# The array builder represents a list
-/
namespace Imt.ArrB
open Imt Imt.Spec

variable {α : Type}

/-- Representation: the kept prefix of the base and the changes together are the list `l`; all pointers are valid. -/
def Rep (s : AB α) (b l : List α) : Prop :=
  s.base = b ∧ s.offset ≤ b.length ∧ (b.take s.offset).map some ++ s.changes = l.map some

theorem Rep.size {s : AB α} {b l : List α} (h : Rep s b l) : size s = l.length := by
  obtain ⟨h1, h2, h3⟩ := h
  have := congrArg List.length h3
  simp only [List.length_append, List.length_map, List.length_take] at this
  unfold ArrB.size; omega

theorem Rep.base_take {s : AB α} {b l : List α} (h : Rep s b l) : b.take s.offset = l.take s.offset := by
  obtain ⟨h1, h2, h3⟩ := h
  have := congrArg (List.take s.offset) h3
  rw [List.take_append_of_le_length (by simp [h2]), List.take_of_length_le (by simp; omega), ← List.map_take] at this
  exact List.map_injective_iff.mpr (fun _ _ => Option.some.inj) this

theorem Rep.changes {s : AB α} {b l : List α} (h : Rep s b l) : s.changes = (l.drop s.offset).map some := by
  obtain ⟨h1, h2, h3⟩ := h
  have := congrArg (List.drop s.offset) h3
  rw [List.drop_append_of_le_length (by simp [h2]), List.drop_of_length_le (by simp; omega), ← List.map_drop] at this
  simpa using this

theorem Rep.off_le {s : AB α} {b l : List α} (h : Rep s b l) : s.offset ≤ l.length := by
  have := h.size; unfold ArrB.size at this; omega

theorem Rep.mk' {s : AB α} {b l : List α} (h1 : s.base = b) (h2 : s.offset ≤ b.length)
    (h3 : b.take s.offset = l.take s.offset) (h4 : s.changes = (l.drop s.offset).map some) : Rep s b l := by
  refine ⟨h1, h2, ?_⟩
  rw [h3, h4, ← List.map_append, List.take_append_drop]

theorem rep_ofBase (b : List α) : Rep (ofBase b) b b := by
  refine ⟨rfl, Nat.le_refl _, ?_⟩
  simp [ofBase]

theorem rep_new : Rep (new : AB α) [] [] := ⟨rfl, Nat.le_refl _, rfl⟩

theorem rep_ofList (l : List α) : Rep (ofList l) [] l := ⟨rfl, Nat.le_refl _, by simp [ofList]⟩

theorem copyLoop_eq (u : α) (b : List α) (pos : Nat) : ∀ (n x : Nat) (pre : List (Option α)) (post : List (Option α)),
    pos + pre.length = x → x + n ≤ b.length →
    copyLoop u b pos n x (pre ++ (List.replicate n none ++ post)) = pre ++ (((b.drop x).take n).map some ++ post)
  | 0, x, pre, post, _, _ => by simp [copyLoop]
  | n + 1, x, pre, post, h, hl => by
    rw [copyLoop, List.replicate_succ, List.cons_append]
    have e : (pre ++ none :: (List.replicate n none ++ post)).set (x - pos) (some (b.getD x u)) =
      (pre ++ [some (b.getD x u)]) ++ (List.replicate n none ++ post) := by
        rw [List.set_append_right _ _ (by omega), show x - pos - pre.length = 0 by omega]
        simp
    rw [e]
    rw [copyLoop_eq u b pos n (x + 1) _ post (by simp; omega) (by omega)]
    have hx : x < b.length := by omega
    rw [List.drop_eq_getElem_cons hx, List.take_succ_cons]
    simp [List.getD_eq_getElem?_getD, List.getElem?_eq_getElem hx]

theorem Rep.extend {s : AB α} {b l : List α} (h : Rep s b l) (u : α) (pos : Nat) :
    Rep (extendChanges u s pos) b l ∧ (extendChanges u s pos).offset = min pos s.offset := by
  unfold extendChanges
  split
  · rename_i hlt
    have hb := h.2.1
    have hl := h.off_le
    refine ⟨?_, by simp; omega⟩
    have hc := copyLoop_eq u s.base pos (s.offset - pos) pos [] s.changes (by simp) (by rw [h.1]; omega)
    rw [List.nil_append] at hc
    refine Rep.mk' h.1 (by simp; omega) ?_ ?_
    · have := congrArg (List.take pos) h.base_take
      rwa [List.take_take, List.take_take, show min pos s.offset = pos by omega] at this
    · show copyLoop _ _ _ _ _ _ = _
      rw [hc, List.nil_append, h.changes, ← List.map_append, h.1]
      congr 1
      have : (b.drop pos).take (s.offset - pos) = (l.drop pos).take (s.offset - pos) := by
        rw [← List.drop_take, ← List.drop_take, h.base_take]
      rw [this]
      have h2 : l.drop s.offset = (l.drop pos).drop (s.offset - pos) := by
        rw [List.drop_drop]; congr 1; omega
      rw [h2, List.take_append_drop]
  · exact ⟨h, by omega⟩

theorem rep_add {s : AB α} {b l : List α} (h : Rep s b l) (v : α) : Rep (add s v) b (l ++ [v]) := by
  refine ⟨h.1, h.2.1, ?_⟩
  show (b.take s.offset).map some ++ (s.changes ++ [some v]) = _
  rw [← List.append_assoc, h.2.2]; simp

theorem rep_addSet {s : AB α} {b l : List α} (h : Rep s b l) (vs : List α) : Rep (addSet s vs) b (l ++ vs) := by
  refine ⟨h.1, h.2.1, ?_⟩
  show (b.take s.offset).map some ++ (s.changes ++ vs.map some) = _
  rw [← List.append_assoc, h.2.2]; simp

/-- Replacing the tail of the changes from position `pos ≥ offset` replaces the tail of the list. -/
theorem Rep.splice {s : AB α} {b l : List α} (h : Rep s b l) {pos : Nat} (hp : s.offset ≤ pos) (hpl : pos ≤ l.length)
    (r : List α) : Rep { s with changes := s.changes.take (pos - s.offset) ++ r.map some } b (l.take pos ++ r) := by
  refine Rep.mk' h.1 h.2.1 ?_ ?_
  · show b.take s.offset = _
    show _ = (l.take pos ++ r).take s.offset
    rw [h.base_take, List.take_append_of_le_length (by simp; omega), List.take_take]
    congr 1; omega
  · show s.changes.take (pos - s.offset) ++ r.map some = _
    rw [h.changes, ← List.map_take, ← List.map_append]
    congr 1
    show _ = List.drop s.offset (l.take pos ++ r)
    rw [List.drop_append_of_le_length (by simp; omega), List.drop_take]

theorem rep_insert {s : AB α} {b l : List α} (h : Rep s b l) (u : α) {pos : Nat} (hp : pos ≤ l.length) (v : α) :
    ∃ s', insert u s pos v = .ok s' ∧ Rep s' b (l.take pos ++ v :: l.drop pos) := by
  obtain ⟨hr, ho⟩ := h.extend u pos
  unfold insert
  simp only [vecInsert]
  rw [if_pos (by rw [hr.changes]; simp; omega)]
  refine ⟨_, rfl, ?_⟩
  have := hr.splice (pos := pos) (by omega) hp (v :: l.drop pos)
  convert this using 2
  rw [hr.changes]
  simp only [List.map_cons, List.append_assoc, List.singleton_append, List.map_drop, List.drop_drop]
  congr 3
  omega

theorem rep_eraseSet {s : AB α} {b l : List α} (h : Rep s b l) (u : α) {pos n : Nat} (hp : pos + n ≤ l.length) :
    ∃ s', eraseSet u s pos n = .ok s' ∧ Rep s' b (l.take pos ++ l.drop (pos + n)) := by
  obtain ⟨hr, ho⟩ := h.extend u pos
  unfold eraseSet
  simp only [vecErase]
  rw [if_pos (by rw [hr.changes]; simp; omega)]
  refine ⟨_, rfl, ?_⟩
  have := hr.splice (pos := pos) (by omega) (by omega) (l.drop (pos + n))
  convert this using 2
  rw [hr.changes]
  simp only [List.map_drop, List.drop_drop]
  congr 2
  omega

theorem rep_erase {s : AB α} {b l : List α} (h : Rep s b l) (u : α) {pos : Nat} (hp : pos < l.length) :
    ∃ s', erase u s pos = .ok s' ∧ Rep s' b (l.take pos ++ l.drop (pos + 1)) := rep_eraseSet h u hp

theorem rep_set {s : AB α} {b l : List α} (h : Rep s b l) (u : α) {pos : Nat} (hp : pos < l.length) (v : α) :
    ∃ s', set u s pos v = .ok s' ∧ Rep s' b (l.take pos ++ v :: l.drop (pos + 1)) := by
  obtain ⟨hr, ho⟩ := h.extend u pos
  unfold set
  simp only [vecSet]
  have hlt : pos - (extendChanges u s pos).offset < (extendChanges u s pos).changes.length := by
    rw [hr.changes]; simp; omega
  rw [if_pos hlt]
  refine ⟨_, rfl, ?_⟩
  have := hr.splice (pos := pos) (by omega) (by omega) (v :: l.drop (pos + 1))
  convert this using 2
  rw [List.set_eq_take_append_cons_drop, if_pos hlt, hr.changes]
  simp only [List.map_cons, List.map_drop, List.drop_drop]
  congr 3
  omega

theorem rep_trunc {s : AB α} {b l : List α} (h : Rep s b l) {pos : Nat} (hp : pos ≤ l.length) :
    ∃ s', trunc s pos = .ok s' ∧ Rep s' b (l.take pos) := by
  unfold trunc
  have hb := h.2.1
  split
  · refine ⟨_, rfl, Rep.mk' h.1 (by simp; omega) ?_ (by simp)⟩
    have := congrArg (List.take pos) h.base_take
    rw [List.take_take, List.take_take, show min pos s.offset = pos by omega] at this
    simpa [List.take_take] using this
  · rw [if_pos (by rw [h.changes]; simp; omega)]
    refine ⟨_, rfl, ?_⟩
    have := h.splice (pos := pos) (by omega) hp []
    simpa using this

theorem rep_clear {s : AB α} {b l : List α} (h : Rep s b l) : Rep (clear s) b [] := ⟨h.1, Nat.zero_le _, by simp [clear]⟩

theorem rep_revert {s : AB α} {b l : List α} (h : Rep s b l) : Rep (revert s) b b := by
  refine ⟨h.1, by simp [revert, h.1], by simp [revert, h.1]⟩

theorem rep_get {s : AB α} {b l : List α} (h : Rep s b l) (u : α) {pos : Nat} (hp : pos < l.length) :
    get u s pos = .ok l[pos] := by
  unfold get
  split
  · rename_i hlt
    have hb := h.2.1
    have := congrArg (fun x : List α => x[pos]?) h.base_take
    simp only [List.getElem?_take, if_pos hlt] at this
    rw [h.1, List.getD_eq_getElem?_getD, this, List.getElem?_eq_getElem hp]; rfl
  · rename_i hlt
    have hlt : s.offset ≤ pos := by omega
    have : s.changes[pos - s.offset]? = some (some l[pos]) := by
      rw [h.changes, List.getElem?_map, List.getElem?_drop, show s.offset + (pos - s.offset) = pos by omega,
        List.getElem?_eq_getElem hp]; rfl
    rw [this]

theorem get_out {s : AB α} {b l : List α} (h : Rep s b l) (u : α) {pos : Nat} (hp : l.length ≤ pos) :
    get u s pos = .err := by
  have := h.off_le
  unfold get
  rw [if_neg (by omega)]
  have : s.changes[pos - s.offset]? = none := by
    rw [List.getElem?_eq_none_iff, h.changes]; simp; omega
  rw [this]

theorem rep_revLoop {s : AB α} {b l : List α} (h : Rep s b l) (u : α) : ∀ (n : Nat) (out : AB α) (b' o : List α),
    n ≤ l.length → Rep out b' o → ∃ s', revLoop u s n out = .ok s' ∧ Rep s' b' (o ++ (l.take n).reverse)
  | 0, out, b', o, _, ho => ⟨out, rfl, by simpa using ho⟩
  | n + 1, out, b', o, hn, ho => by
    rw [revLoop, rep_get h u (show n < l.length by omega)]
    obtain ⟨s', h1, h2⟩ := rep_revLoop h u n (add out l[n]) b' (o ++ [l[n]]) (by omega) (rep_add ho _)
    refine ⟨s', h1, ?_⟩
    have : (l.take (n + 1)).reverse = l[n] :: (l.take n).reverse := by
      rw [List.take_succ_eq_append_getElem (by omega)]; simp
    rw [this]
    simpa using h2

theorem rep_reverse {s : AB α} {b l : List α} (h : Rep s b l) (u : α) :
    ∃ s', reverse u s = .ok s' ∧ Rep s' [] l.reverse := by
  obtain ⟨s', h1, h2⟩ := rep_revLoop h u (size s) new [] [] (Nat.le_of_eq h.size) rep_new
  refine ⟨s', h1, ?_⟩
  rw [h.size] at h2
  simpa using h2

theorem rep_fill (v : α) : ∀ (n : Nat) (s : AB α) (b l : List α), Rep s b l →
    Rep (fill s v n) b (l ++ List.replicate n v)
  | 0, s, b, l, h => by simpa [fill] using h
  | n + 1, s, b, l, h => by
    have := rep_fill v n (add s v) b (l ++ [v]) (rep_add h v)
    rw [fill, List.replicate_succ]
    simpa using this

theorem rep_setSize {s : AB α} {b l : List α} (h : Rep s b l) (n : Nat) (v : α) :
    ∃ s', setSize s n v = .ok s' ∧ Rep s' b (l.take n ++ List.replicate (n - l.length) v) := by
  unfold setSize
  have hs := h.size
  split
  · obtain ⟨s', h1, h2⟩ := rep_trunc h (pos := n) (by omega)
    refine ⟨s', h1, ?_⟩
    rw [show n - l.length = 0 by omega]; simpa using h2
  · refine ⟨_, rfl, ?_⟩
    have := rep_fill v (n - size s) s b l h
    rw [hs] at this ⊢
    rwa [List.take_of_length_le (by omega)]

theorem commitBase_eq (u : α) (b : List α) (cap : Nat) : ∀ (n x : Nat) (out : List α), x + n ≤ b.length →
    out.length + n ≤ cap → commitBase u b cap n x out = out ++ (b.drop x).take n
  | 0, x, out, _, _ => by simp [commitBase]
  | n + 1, x, out, h, hc => by
    have hx : x < b.length := by omega
    rw [commitBase, pushCap, if_pos (by omega), commitBase_eq u b cap n (x + 1) _ (by omega) (by simp; omega),
      List.drop_eq_getElem_cons hx, List.take_succ_cons]
    simp [List.getD_eq_getElem?_getD, List.getElem?_eq_getElem hx]

theorem commitChanges_eq (isDef : α → Bool) (cap : Nat) : ∀ (l out : List α), out.length + l.length ≤ cap →
    commitChanges isDef cap (l.map some) out = .ok (out ++ l.filter isDef)
  | [], out, _ => by simp [commitChanges]
  | v :: r, out, h => by
    rw [List.length_cons] at h
    rw [List.map_cons, commitChanges]
    by_cases hv : isDef v = true
    · rw [if_pos hv, pushCap, if_pos (by omega), commitChanges_eq isDef cap r _ (by simp; omega), List.filter_cons_of_pos hv]
      simp
    · rw [if_neg hv, commitChanges_eq isDef cap r _ (by omega), List.filter_cons_of_neg hv]

/-- Commit keeps the prefix taken from the base as it is and filters the rest. -/
theorem rep_commit {s : AB α} {b l : List α} (h : Rep s b l) (isDef : α → Bool) (u : α) :
    commit isDef u s = .ok (if dirty s then l.take s.offset ++ (l.drop s.offset).filter isDef else b) := by
  have hs := h.size
  have hb := h.2.1
  have hol := h.off_le
  unfold commit
  by_cases h0 : size s = 0
  · rw [if_pos h0]
    have hl : l = [] := List.length_eq_zero_iff.mp (by omega)
    subst hl
    unfold size at h0
    by_cases hd : dirty s = true
    · simp [hd]
    · rw [if_neg hd]
      simp only [dirty, Bool.or_eq_true, bne_iff_ne, not_or, not_not, h.1] at hd
      rw [List.length_eq_zero_iff.mp (show b.length = 0 by omega)]
  · rw [if_neg h0]
    by_cases hd : dirty s = true
    · simp only [hd, Bool.not_true, Bool.false_eq_true, if_false, if_true]
      rw [commitBase_eq u s.base _ _ 0 [] (by rw [h.1]; omega) (by simp)]
      rw [h.changes, commitChanges_eq _ _ _ _ (by simp [h.1]; omega)]
      simp [h.1, h.base_take]
    · simp [hd, h.1]

/-- When the base has no undefined items, commit gives the defined items of the list. -/
theorem rep_commit_def {s : AB α} {b l : List α} (h : Rep s b l) (isDef : α → Bool) (u : α)
    (hb : ∀ v ∈ b, isDef v = true) : commit isDef u s = .ok (l.filter isDef) := by
  rw [rep_commit h]
  congr 1
  split
  · conv => rhs; rw [← List.take_append_drop s.offset l, List.filter_append]
    congr 1
    refine (List.filter_eq_self.mpr ?_).symm
    intro a ha
    rw [← h.base_take] at ha
    exact hb a (List.mem_of_mem_take ha)
  · rename_i hd
    simp only [dirty, Bool.or_eq_true, bne_iff_ne, not_or, not_not, h.1, Bool.not_eq_true', Bool.not_eq_false] at hd
    have hl : l = b := by
      have h3 := h.2.2
      rw [hd.1, List.isEmpty_iff.mp hd.2, List.take_length, List.append_nil] at h3
      exact (List.map_injective_iff.mpr (fun _ _ => Option.some.inj) h3).symm
    rw [hl, List.filter_eq_self.mpr hb]

end Imt.ArrB
