import Verif.Model.NamedEnum
import Verif.Lemmas.Basic
/-!
# C52, C81: `NamedEnum`
-/
namespace Imt.Props
open Imt Imt.NamedEnum

/-- The search finds the border between the items before and not before. -/
theorem lowerBound_spec (p : Def → Bool) (l : List Def)
    (mono : ∀ i j (hj : j < l.length) (hij : i ≤ j), p l[j] = true → p (l[i]'(by omega)) = true) (skip len : Nat)
    (h : skip + len ≤ l.length) (h1 : ∀ i (hi : i < l.length), i < skip → p l[i] = true)
    (h2 : ∀ i (hi : i < l.length), skip + len ≤ i → p l[i] = false) :
    lowerBound p l skip len ≤ l.length ∧
    (∀ i (hi : i < l.length), i < lowerBound p l skip len → p l[i] = true) ∧
    (∀ i (hi : i < l.length), lowerBound p l skip len ≤ i → p l[i] = false) := by
  induction len using Nat.strongRecOn generalizing skip with
  | _ len ih =>
    rw [lowerBound.eq_def]
    by_cases h0 : len = 0
    · subst h0; simp only [if_pos]; exact ⟨h, h1, h2⟩
    · rw [if_neg h0]
      have hm : skip + len / 2 < l.length := by omega
      simp only [List.getElem?_eq_getElem hm]
      cases hp : p l[skip + len / 2] with
      | true =>
        simp only [if_true]
        refine ih (len - len / 2 - 1) (by omega) (skip + len / 2 + 1) (by omega) ?_ ?_
        · exact fun i hi hlt => mono i _ hm (by omega) hp
        · exact fun i hi hle => h2 i hi (by omega)
      | false =>
        simp only [Bool.false_eq_true, if_false]
        refine ih (len / 2) (by omega) skip (by omega) h1 ?_
        intro i hi hle
        cases e : p l[i] with
        | false => rfl
        | true => have := mono _ i hi hle e; rw [hp] at this; cases this

/-- Search in a table sorted by a key: `lt` is the strict order of keys, `key` the searched position. -/
theorem lb_sorted (lt : Def → Def → Bool)
    (tr : ∀ a b c, lt b a = false → lt b c = true → lt a c = true)
    (r : List Def) (hs : r.Pairwise (fun a b => lt b a = false)) (d : Def) :
    let n := lowerBound (fun x => lt x d) r 0 r.length
    (∀ x ∈ r, lt x d = false → lt d x = false → ∃ f, r[n]? = some f ∧ f ∈ r ∧ lt f d = false ∧ lt d f = false) := by
  intro n x hx e1 e2
  have hs' := List.pairwise_iff_getElem.1 hs
  obtain ⟨hn, b1, b2⟩ := lowerBound_spec (fun x => lt x d) r (by
    intro i j hj hij h
    rcases Nat.lt_or_eq_of_le hij with hij | hij
    · exact tr _ _ _ (hs' i j (by omega) hj hij) h
    · subst hij; exact h) 0 r.length (by omega) (by omega) (by omega)
  obtain ⟨k, hk, rfl⟩ := List.getElem_of_mem hx
  have hnk : n ≤ k := by
    rcases Nat.lt_or_ge k n with h | h
    · have := b1 k hk h; rw [e1] at this; cases this
    · exact h
  have hlt : n < r.length := by omega
  refine ⟨r[n], List.getElem?_eq_getElem hlt, List.getElem_mem _, b2 n hlt (Nat.le_refl _), ?_⟩
  rcases Nat.lt_or_eq_of_le hnk with h | h
  · cases e : lt d r[n] with
    | false => rfl
    | true =>
      have e3 := hs' n k hlt hk h
      -- d < r[n] ≤ r[k]: then d < r[k]
      have := (show lt d r[k] = true by
        cases e4 : lt d r[k] with
        | true => rfl
        | false =>
          have := tr r[k] d r[n] e4 e
          rw [e3] at this; cases this)
      rw [e2] at this; cases this
  · have : r[n] = r[k] := by simp only [h]
    rw [this]; exact e2

theorem byName_tr (a b c : Def) (h : cmpByName b a = false) (h' : cmpByName b c = true) : cmpByName a c = true := by
  unfold cmpByName at *
  rcases ltBytes_tri a.name b.name with h1 | h1 | h1
  · exact ltBytes_trans h1 h'
  · rw [h1]; exact h'
  · rw [h] at h1; cases h1

theorem byVal_tr (a b c : Def) (h : cmpByVal b a = false) (h' : cmpByVal b c = true) : cmpByVal a c = true := by
  simp only [cmpByVal, decide_eq_false_iff_not, decide_eq_true_eq] at *; omega

/-- **C52.** A result of `find` is the value of an entry of that name. -/
theorem C52_find_sound (x : List Def) (o : Obj) (h : Made x o) (name : Bytes) (v : Int) (hf : find o name = some v) :
    ⟨v, name⟩ ∈ x := by
  unfold find at hf
  split at hf
  · cases hf
  · rename_i f e
    split at hf
    · rename_i e2
      cases hf; subst e2
      exact h.byName.perm.mem_iff.1 (List.mem_of_getElem? e)
    · cases hf

theorem find_complete (x : List Def) (o : Obj) (h : Made x o) (name : Bytes) (v : Int) (hm : ⟨v, name⟩ ∈ x) :
    ∃ w, find o name = some w := by
  obtain ⟨f, e, -, e1, e2⟩ := lb_sorted cmpByName byName_tr o.byName h.byName.sorted ⟨0, name⟩
    ⟨v, name⟩ (h.byName.perm.mem_iff.2 hm) (ltBytes_irrefl _) (ltBytes_irrefl _)
  have hn : f.name = name := by
    rcases ltBytes_tri f.name name with h | h | h
    · rw [cmpByName] at e1; rw [h] at e1; cases e1
    · exact h
    · rw [cmpByName] at e2; rw [h] at e2; cases e2
  unfold find
  rw [e]
  exact ⟨f.val, if_pos hn⟩

/-- **C52.** Names outside of the table, and only these, are reported as absent. -/
theorem C52_unknown_name (x : List Def) (o : Obj) (h : Made x o) (name : Bytes) :
    find o name = none ↔ ∀ d ∈ x, d.name ≠ name := by
  constructor
  · rintro hf ⟨v, n⟩ hd rfl
    obtain ⟨w, hw⟩ := find_complete x o h _ _ hd
    rw [hf] at hw; cases hw
  · intro hx
    cases e : find o name with
    | none => rfl
    | some v => exact absurd rfl (hx _ (C52_find_sound x o h name v e))

/-- **C52.** With distinct names the value of a name is found. -/
theorem C52_name_to_value (x : List Def) (o : Obj) (h : Made x o) (hd : ∀ a ∈ x, ∀ b ∈ x, a.name = b.name → a = b)
    (d : Def) (hm : d ∈ x) : find o d.name = some d.val ∧ byNameAt o d.name = .ok d.val := by
  obtain ⟨w, hw⟩ := find_complete x o h d.name d.val hm
  have := hd _ (C52_find_sound x o h _ _ hw) _ hm rfl
  have hv : w = d.val := by rw [← this]
  subst hv
  refine ⟨hw, ?_⟩
  unfold find at hw
  unfold byNameAt
  split at hw
  · cases hw
  · split at hw
    · rename_i e2
      rw [if_pos e2]; exact congrArg _ (Option.some.inj hw)
    · cases hw

/-- **C52.** The exception for an unknown name carries the name and all known names. -/
theorem C52_unknown_name_exception (x : List Def) (o : Obj) (h : Made x o) (name : Bytes) (hx : ∀ d ∈ x, d.name ≠ name) :
    ∃ l, byNameAt o name = .error (name, l) ∧ l.Perm (x.map (·.name)) := by
  refine ⟨o.byName.map (·.name), ?_, h.byName.perm.map _⟩
  have := (C52_unknown_name x o h name).2 hx
  unfold find at this
  unfold byNameAt
  split at this
  · rfl
  · split at this
    · cases this
    · rename_i e; simp only [if_neg e]

/-- **C52.** With distinct values the name of a value is found; values outside of the table have the empty name. -/
theorem C52_value_to_name (x : List Def) (o : Obj) (h : Made x o) (hd : ∀ a ∈ x, ∀ b ∈ x, a.val = b.val → a = b) :
    (∀ d ∈ x, byValAt o d.val = d.name) ∧ (∀ v, (∀ d ∈ x, d.val ≠ v) → byValAt o v = []) := by
  constructor
  · intro d hm
    obtain ⟨f, e, hf, e1, e2⟩ := lb_sorted cmpByVal byVal_tr o.byVal h.byVal.sorted ⟨d.val, []⟩
      d (h.byVal.perm.mem_iff.2 hm) (by simp [cmpByVal]) (by simp [cmpByVal])
    have hv : f.val = d.val := by simp only [cmpByVal, decide_eq_false_iff_not] at e1 e2; omega
    unfold byValAt
    rw [e]
    simp only [hv, if_true]
    rw [hd f (h.byVal.perm.mem_iff.1 hf) d hm hv]
  · intro v hv
    unfold byValAt
    split
    · rfl
    · rename_i f e
      rw [if_neg (hv f (h.byVal.perm.mem_iff.1 (List.mem_of_getElem? e)))]

/-- A table and its object. -/
example : Made [⟨2, [98]⟩, ⟨1, [97, 99]⟩, ⟨3, [97]⟩]
    ⟨[⟨1, [97, 99]⟩, ⟨2, [98]⟩, ⟨3, [97]⟩], [⟨3, [97]⟩, ⟨1, [97, 99]⟩, ⟨2, [98]⟩]⟩ :=
  ⟨⟨by decide, by decide⟩, ⟨by decide, by decide⟩⟩

/-- **C81, violation.** `allEnums` returns the separator instead of the list, whatever the (non-empty) table is. -/
theorem C81_violation (x : List Def) (o : Obj) (h : Made x o) (hx : x ≠ []) (separator : Bytes) :
    allEnums o separator = separator := by
  have hne : o.byName ≠ [] := fun e => hx (by have := h.byName.perm; rw [e] at this; exact this.nil_eq.symm)
  have key : ∀ (l : List Def) (s : Bytes × Bytes), l ≠ [] →
      (l.foldl (fun (s : Bytes × Bytes) x => (s.1 ++ s.2 ++ x.name, separator)) s).2 = separator := by
    intro l
    induction l with
    | nil => intro s h; exact absurd rfl h
    | cons a l ih =>
      intro s _
      rw [List.foldl_cons]
      cases l with
      | nil => rfl
      | cons b l => exact ih _ (by simp)
  exact key _ _ hne

/-- The list is not returned even for one entry: `allEnums` of the table `1 ↦ "a"` is `", "`, not `"a"`. -/
theorem C81_violation_witness : allEnums ⟨[⟨1, [97]⟩], [⟨1, [97]⟩]⟩ [44, 32] ≠ [97] := by decide

/-- **C81 (partial).** For the empty table the empty list is returned. Missing: all other tables, see the violations. -/
theorem C81_empty_partial (sep : Bytes) : allEnums ⟨[], []⟩ sep = [] := rfl

end Imt.Props
