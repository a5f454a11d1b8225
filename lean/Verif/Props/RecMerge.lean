import Verif.Model.RecMerge
import Verif.Props.ObjB
/-! # Recursive merge of objects: C151 -/
namespace Imt.Props
open Imt Imt.Spec Imt.Obj Imt.ObjB

/-! Specification -/

mutual
/-- The keys of every object are strictly increasing. -/
def SortedTree : JV → Prop
  | .obj l => StrictSorted l ∧ SortedKids l
  | _ => True
def SortedKids : List (Bytes × JV) → Prop
  | [] => True
  | (_, v) :: r => SortedTree v ∧ SortedKids r
end

mutual
/-- No object has an undefined member. -/
def Solid : JV → Prop
  | .obj l => SolidKids l
  | .undef => False
  | _ => True
def SolidKids : List (Bytes × JV) → Prop
  | [] => True
  | (_, v) :: r => Solid v ∧ SolidKids r
end

/-- The value under a path of keys; undefined when there is none. -/
def under : JV → List Bytes → JV
  | v, [] => v
  | .obj l, k :: p => match lookup l k with
    | some v => under v p
    | none => .undef
  | _, _ :: _ => .undef

/-- The path leaves the objects of `d` at a key that is not there. -/
def Untouched : JV → List Bytes → Prop
  | .obj l, k :: p => match lookup l k with
    | some v => Untouched v p
    | none => True
  | _, _ => False

/-- A member written as undefined (to be removed). -/
def Removed : JV → List Bytes → Prop
  | .obj l, k :: p => match lookup l k with
    | some .undef => p = []
    | some v => Removed v p
    | none => False
  | _, _ => False

def isObj : JV → Bool
  | .obj _ => true
  | _ => false

/-! Lemmas -/

theorem applyDiffImpl_congr {f g : JV → JV → JV} (cd : Bool) : ∀ (bs ds : Members JV),
    (∀ x, ∀ m ∈ ds, f x m.2 = g x m.2) → applyDiffImpl defd f cd bs ds = applyDiffImpl defd g cd bs ds
  | [], ds, _ => rfl
  | b :: bs, ds, h => by
    have ih := applyDiffImpl_congr (f := f) (g := g) cd bs
    rw [applyDiffImpl, applyDiffImpl]
    induction ds with
    | nil => rfl
    | cons d ds ihd =>
      simp only [mergeStep]
      split
      · rw [ih _ h]
      · rw [ihd (fun x m hm => h x m (by simp [hm]))]
      · rw [ih _ (fun x m hm => h x m (by simp [hm]))]
        simp only [bothDiff, h b.2 d (by simp)]

theorem depth_mem {l : List (Bytes × JV)} {m : Bytes × JV} (h : m ∈ l) : jdepth m.2 ≤ depthM l := by
  induction l with
  | nil => simp at h
  | cons a r ih =>
    rw [depthM]
    rcases List.mem_cons.1 h with rfl | h
    · exact Nat.le_max_left _ _
    · exact Nat.le_trans (ih h) (Nat.le_max_right _ _)

theorem lookup_mem' {l : List (Bytes × JV)} {k : Bytes} {v : JV} (h : lookup l k = some v) : (k, v) ∈ l := by
  induction l with
  | nil => simp [lookup] at h
  | cons a r ih =>
    unfold lookup at h
    split at h
    · rename_i e; simp only [Option.some.injEq] at h; subst e; subst h; simp
    · exact List.mem_cons_of_mem _ (ih h)

theorem recMergeF_fuel : ∀ (n m : Nat) (b d : JV), jdepth d ≤ n → jdepth d ≤ m → recMergeF n b d = recMergeF m b d := by
  have key : ∀ (n : Nat) (b d : JV), isObj d = false → recMergeF n b d = d := by
    intro n b d h
    cases n with
    | zero => rfl
    | succ n => cases b <;> cases d <;> simp [recMergeF, isObj] at h ⊢
  intro n
  induction n with
  | zero =>
    intro m b d h _
    have : isObj d = false := by cases d <;> simp [jdepth, isObj] at h ⊢
    rw [key _ _ _ this, key _ _ _ this]
  | succ n ih =>
    intro m b d h1 h2
    by_cases hd : isObj d = false
    · rw [key _ _ _ hd, key _ _ _ hd]
    cases d with
    | obj d =>
      rw [jdepth] at h1 h2
      match m, h2 with
      | m + 1, h2 =>
        cases b with
        | obj b =>
          simp only [recMergeF]
          rw [applyDiffImpl_congr false b d]
          intro x e he
          have := depth_mem he
          exact ih m x e.2 (by omega) (by omega)
        | _ => rfl
    | _ => simp [isObj] at hd

/-- C151: the recursion: two objects are merged member by member with the same function, anything else is replaced. -/
theorem C151_unfold (b d : JV) : recursiveMerge b d = match b, d with
    | .obj b, .obj d => .obj (applyDiffImpl defd recursiveMerge false b d)
    | _, d => d := by
  unfold recursiveMerge
  cases d with
  | obj d =>
    cases b with
    | obj b =>
      simp only [jdepth, recMergeF]
      rw [applyDiffImpl_congr false b d]
      intro x e he
      exact recMergeF_fuel _ _ _ _ (depth_mem he) (Nat.le_refl _)
    | _ => simp [jdepth, recMergeF]
  | _ => cases b <;> rfl

theorem merge_obj (b d : Members JV) :
    recursiveMerge (.obj b) (.obj d) = .obj (applyDiffImpl defd recursiveMerge false b d) := C151_unfold _ _

theorem merge_other (b d : JV) (h : isObj b = false ∨ isObj d = false) : recursiveMerge b d = d := by
  rw [C151_unfold]
  cases b <;> cases d <;> simp [isObj] at h ⊢

/-- C151: the members of the result: a key of the diff is taken from it, merged when the base has the key too, removed when
it is undefined; the other keys are those of the base. The result is ordered. -/
theorem C151_members (b d : Members JV) (hb : StrictSorted b) (hd : StrictSorted d) :
    ∃ r, recursiveMerge (.obj b) (.obj d) = .obj r ∧ StrictSorted r ∧
      ∀ k, lookup r k = match lookup d k with
        | none => lookup b k
        | some .undef => none
        | some v => some (match lookup b k with | none => v | some o => recursiveMerge o v) := by
  refine ⟨_, merge_obj b d, applyDiffImpl_sorted _ _ _ hb hd, fun k => ?_⟩
  rw [applyDiffImpl_lookup _ _ _ hb hd]
  cases lookup d k with
  | none => rfl
  | some v => cases v <;> cases lookup b k <;> simp [comb, defd]

theorem sortedKids_mem {l : List (Bytes × JV)} (h : SortedKids l) {m : Bytes × JV} (hm : m ∈ l) : SortedTree m.2 := by
  induction l with
  | nil => simp at hm
  | cons a r ih =>
    rw [SortedKids] at h
    rcases List.mem_cons.1 hm with rfl | hm
    · exact h.1
    · exact ih h.2 hm

theorem sortedKids_of {l : List (Bytes × JV)} (h : ∀ m ∈ l, SortedTree m.2) : SortedKids l := by
  induction l with
  | nil => trivial
  | cons a r ih => exact ⟨h a (by simp), ih (fun m hm => h m (by simp [hm]))⟩

theorem solidKids_mem {l : List (Bytes × JV)} (h : SolidKids l) {m : Bytes × JV} (hm : m ∈ l) : Solid m.2 := by
  induction l with
  | nil => simp at hm
  | cons a r ih =>
    rw [SolidKids] at h
    rcases List.mem_cons.1 hm with rfl | hm
    · exact h.1
    · exact ih h.2 hm

theorem under_nonobj {v : JV} (h : isObj v = false) (k : Bytes) (p : List Bytes) : under v (k :: p) = .undef := by
  cases v <;> simp [isObj, under] at h ⊢

/-- The value of a key of two objects (or of things that are no objects) after merging. -/
theorem under_merge (b d : JV) (hb : SortedTree b) (hd : SortedTree d) (hbo : isObj b = true) (hdo : isObj d = true)
    (k : Bytes) (p : List Bytes) :
    under (recursiveMerge b d) (k :: p) = match d with
      | .obj dl => (match lookup dl k with
        | none => under b (k :: p)
        | some .undef => .undef
        | some v => (match b with
          | .obj bl => (match lookup bl k with
            | none => under v p
            | some o => under (recursiveMerge o v) p)
          | _ => .undef))
      | _ => .undef := by
  cases b with
  | obj bl =>
    cases d with
    | obj dl =>
      obtain ⟨r, h1, -, h3⟩ := C151_members bl dl hb.1 hd.1
      rw [h1]
      simp only [under, h3 k]
      cases hl : lookup dl k with
      | none => rfl
      | some v =>
        cases v <;> cases lookup bl k <;> simp
    | _ => simp [isObj] at hdo
  | _ => simp [isObj] at hbo

theorem sorted_lookup {l : List (Bytes × JV)} {k : Bytes} {v : JV} (h : SortedTree (.obj l)) (hl : lookup l k = some v) :
    SortedTree v := sortedKids_mem h.2 (lookup_mem' hl)

/-- C151: a path that the diff does not mention keeps its value. -/
theorem C151_untouched (p : List Bytes) : ∀ (b d : JV), SortedTree b → SortedTree d → Untouched d p →
    under (recursiveMerge b d) p = under b p := by
  induction p with
  | nil => intro b d _ _ h; cases d <;> simp [Untouched] at h
  | cons k p ih =>
    intro b d hb hd h
    cases d with
    | obj dl =>
      by_cases hbo : isObj b = true
      · rw [under_merge b _ hb hd hbo rfl]
        cases b with
        | obj bl =>
          unfold Untouched at h
          simp only
          cases hl : lookup dl k with
          | none => rfl
          | some v =>
            rw [hl] at h
            simp only at h
            cases hv : isObj v with
            | false => cases v <;> simp [Untouched, isObj] at h hv
            | true =>
              cases v with
              | obj vl =>
                simp only
                cases ho : lookup bl k with
                | none =>
                  simp only [under, ho]
                  have : under (recursiveMerge .undef (.obj vl)) p = under .undef p :=
                    ih _ _ trivial (sorted_lookup hd hl) h
                  rw [merge_other _ _ (Or.inl rfl)] at this
                  rw [this]
                  cases p with
                  | nil => simp [Untouched] at h
                  | cons a q => rfl
                | some o =>
                  simp only [under, ho]
                  exact ih _ _ (sorted_lookup hb ho) (sorted_lookup hd hl) h
              | _ => simp [isObj] at hv
        | _ => simp [isObj] at hbo
      · have hbo : isObj b = false := by simpa using hbo
        rw [merge_other _ _ (Or.inl hbo), under_nonobj hbo]
        unfold Untouched at h
        simp only [under]
        cases hl : lookup dl k with
        | none => rfl
        | some v =>
          rw [hl] at h
          simp only at h ⊢
          have : under (recursiveMerge .undef v) p = under .undef p := ih _ _ trivial (sorted_lookup hd hl) h
          rw [merge_other _ _ (Or.inl rfl)] at this
          rw [this]
          cases p with
          | nil => cases v <;> simp [Untouched] at h
          | cons a q => rfl
    | _ => simp [Untouched] at h

/-- C151: a value of the diff that is defined and no object is the value of its path in the result. -/
theorem C151_written (p : List Bytes) : ∀ (b d : JV), SortedTree b → SortedTree d → isObj (under d p) = false →
    under d p ≠ .undef → under (recursiveMerge b d) p = under d p := by
  induction p with
  | nil => intro b d _ _ h _; rw [under] at h ⊢; rw [merge_other _ _ (Or.inr h)]; cases d <;> rfl
  | cons k p ih =>
    intro b d hb hd h hu
    cases d with
    | obj dl =>
      by_cases hbo : isObj b = true
      · rw [under_merge b _ hb hd hbo rfl]
        cases b with
        | obj bl =>
          simp only [under] at h hu ⊢
          cases hl : lookup dl k with
          | none => simp [hl] at hu
          | some v =>
            rw [hl] at h hu
            simp only at h hu ⊢
            have hv : v ≠ .undef := by
              rintro rfl
              cases p <;> simp [under] at hu
            cases ho : lookup bl k with
            | none => cases v <;> simp at hv ⊢
            | some o =>
              have := ih o v (sorted_lookup hb ho) (sorted_lookup hd hl) h hu
              cases v <;> simp at hv ⊢ <;> exact this
        | _ => simp [isObj] at hbo
      · rw [merge_other _ _ (Or.inl (by simpa using hbo))]
    | _ => simp [under] at hu

/-- C151: a member of the diff that is undefined is not in the result. -/
theorem C151_removed (p : List Bytes) : ∀ (b d : JV), SortedTree b → SortedTree d → Removed d p →
    under (recursiveMerge b d) p = .undef := by
  induction p with
  | nil => intro b d _ _ h; cases d <;> simp [Removed] at h
  | cons k p ih =>
    intro b d hb hd h
    cases d with
    | obj dl =>
      unfold Removed at h
      have hraw : ∀ v, lookup dl k = some v → v ≠ .undef → Removed v p := by
        intro v hv hu; rw [hv] at h; cases v <;> simp at hu h ⊢ <;> exact h
      have hund : ∀ v, lookup dl k = some v → v ≠ .undef → under v p = .undef := by
        intro v hv hu
        have := ih .undef v trivial (sorted_lookup hd hv) (hraw v hv hu)
        rwa [merge_other _ _ (Or.inl rfl)] at this
      by_cases hbo : isObj b = true
      · rw [under_merge b _ hb hd hbo rfl]
        cases b with
        | obj bl =>
          simp only
          cases hl : lookup dl k with
          | none => simp [hl] at h
          | some v =>
            by_cases hv : v = .undef
            · subst hv; rfl
            · cases ho : lookup bl k with
              | none =>
                have := hund v hl hv
                cases v <;> simp at hv ⊢ <;> exact this
              | some o =>
                have := ih o v (sorted_lookup hb ho) (sorted_lookup hd hl) (hraw v hl hv)
                cases v <;> simp at hv ⊢ <;> exact this
        | _ => simp [isObj] at hbo
      · rw [merge_other _ _ (Or.inl (by simpa using hbo))]
        simp only [under]
        cases hl : lookup dl k with
        | none => rfl
        | some v =>
          simp only
          by_cases hv : v = .undef
          · subst hv; cases p <;> rfl
          · exact hund v hl hv
    | _ => simp [Removed] at h

theorem merge_self : ∀ (n : Nat) (d : JV), jdepth d ≤ n → SortedTree d → Solid d → recursiveMerge d d = d := by
  intro n
  induction n with
  | zero =>
    intro d h _ _
    cases d <;> first | exact merge_other _ _ (Or.inl rfl) | simp [jdepth] at h
  | succ n ih =>
    intro d h hs hso
    cases d with
    | obj l =>
      obtain ⟨r, h1, h2, h3⟩ := C151_members l l hs.1 hs.1
      rw [h1]
      congr 1
      apply eq_of_lookup_eq h2 hs.1
      intro k
      rw [h3 k]
      cases hl : lookup l k with
      | none => rfl
      | some v =>
        have hm := lookup_mem' hl
        have hd := depth_mem hm
        rw [jdepth] at h
        have := ih v (by simp only at hd; omega) (sortedKids_mem hs.2 hm) (solidKids_mem hso hm)
        have hv : v ≠ .undef := by
          rintro rfl
          exact solidKids_mem hso hm
        cases v <;> simp [this] at hv ⊢
    | _ => exact merge_other _ _ (Or.inl rfl)

/-- C151: merging a value without undefined members with itself changes nothing, and it is the result of merging it into
an empty object. -/
theorem C151_self (d : JV) (hs : SortedTree d) (hd : Solid d) :
    recursiveMerge d d = d ∧ (isObj d = true → recursiveMerge (.obj []) d = d) := by
  refine ⟨merge_self _ d (Nat.le_refl _) hs hd, fun h => ?_⟩
  cases d with
  | obj l =>
    obtain ⟨r, h1, h2, h3⟩ := C151_members [] l List.Pairwise.nil hs.1
    rw [h1]
    congr 1
    apply eq_of_lookup_eq h2 hs.1
    intro k
    rw [h3 k]
    cases hl : lookup l k with
    | none => rfl
    | some v =>
      have hv : v ≠ .undef := by
        rintro rfl
        exact solidKids_mem hd (lookup_mem' hl)
      cases v <;> simp [lookup] at hv ⊢
  | _ => simp [isObj] at h

theorem merge_idem : ∀ (n : Nat) (b d : JV), jdepth d ≤ n → SortedTree b → SortedTree d → Solid d →
    recursiveMerge (recursiveMerge b d) d = recursiveMerge b d := by
  intro n
  induction n with
  | zero =>
    intro b d h _ _ _
    have : isObj d = false := by cases d <;> simp [jdepth, isObj] at h ⊢
    rw [merge_other _ _ (Or.inr this), merge_other _ _ (Or.inr this)]
  | succ n ih =>
    intro b d h hb hd hs
    cases d with
    | obj dl =>
      cases b with
      | obj bl =>
        obtain ⟨r, h1, h2, h3⟩ := C151_members bl dl hb.1 hd.1
        rw [h1]
        obtain ⟨q, g1, g2, g3⟩ := C151_members r dl h2 hd.1
        rw [g1]
        congr 1
        apply eq_of_lookup_eq g2 h2
        intro k
        rw [g3 k, h3 k]
        cases hl : lookup dl k with
        | none => rfl
        | some v =>
          have hm := lookup_mem' hl
          have hdm := depth_mem hm
          rw [jdepth] at h
          have hv : v ≠ .undef := by
            rintro rfl
            exact solidKids_mem hs hm
          have e1 := merge_self _ v (Nat.le_refl _) (sorted_lookup hd hl) (solidKids_mem hs hm)
          cases ho : lookup bl k with
          | none => cases v <;> simp [e1] at hv ⊢
          | some o =>
            have := ih o v (by simp only at hdm; omega) (sorted_lookup hb ho) (sorted_lookup hd hl) (solidKids_mem hs hm)
            cases v <;> simp [this] at hv ⊢
      | _ =>
        refine (congrArg (fun x => recursiveMerge x (.obj dl)) (merge_other _ _ (Or.inl rfl))).trans ?_
        exact (merge_self _ _ (Nat.le_refl _) hd hs).trans (merge_other _ _ (Or.inl rfl)).symm
    | _ => rw [merge_other _ _ (Or.inr rfl), merge_other _ _ (Or.inr rfl)]

/-- C151: merging the same changes (without removals) twice is the same as once. -/
theorem C151_idempotent (b d : JV) (hb : SortedTree b) (hd : SortedTree d) (hs : Solid d) :
    recursiveMerge (recursiveMerge b d) d = recursiveMerge b d := merge_idem _ b d (Nat.le_refl _) hb hd hs

/-- C151: `applyDiff` with the recursive merge is the recursive merge of objects; a base that is no object counts as an
empty object, a diff that is no object changes nothing. -/
theorem C151_applyDiff (b d : JV) : applyDiffWith recursiveMerge b d =
    if isObj d then recursiveMerge (if isObj b then b else .obj []) d else b := by
  cases d with
  | obj dl => cases b <;> simp [applyDiffWith, isObj, merge_obj] <;> rfl
  | _ => cases b <;> rfl

/-! Examples: `{"a":1,"o":{"x":1,"y":2}}` with `{"o":{"x":5,"y":undefined,"z":{}},"q":[]}`. -/

def exBase : JV := .obj [([97], .bool true), ([111], .obj [([120], .null), ([121], .bool false)])]
def exDiff : JV := .obj [([111], .obj [([120], .bool true), ([121], .undef), ([122], .obj [])]), ([113], .arr [])]

example : recursiveMerge exBase exDiff =
    .obj [([97], .bool true), ([111], .obj [([120], .bool true), ([122], .obj [])]), ([113], .arr [])] := by decide +kernel
example : SortedTree exBase ∧ SortedTree exDiff ∧ Untouched exDiff [[97]] ∧ Untouched exDiff [[111], [119]] ∧
    Removed exDiff [[111], [121]] ∧ under exDiff [[111], [120]] = .bool true ∧ Solid exBase := by
  simp [exBase, exDiff, SortedTree, SortedKids, StrictSorted, Untouched, Removed, under, Solid, SolidKids, lookup, cmpBytes]

/-- C151 is violated: merging is not associative, so the changes of two steps cannot be merged into one in advance: a value
that the first step replaces by a scalar comes back. -/
theorem C151_violation_assoc : ∃ a b c : JV, SortedTree a ∧ SortedTree b ∧ SortedTree c ∧ Solid a ∧ Solid b ∧ Solid c ∧
    recursiveMerge (recursiveMerge a b) c ≠ recursiveMerge a (recursiveMerge b c) := by
  refine ⟨.obj [([107], .obj [([120], .null)])], .obj [([107], .null)], .obj [([107], .obj [])], ?_, ?_, ?_, ?_, ?_, ?_, ?_⟩
  all_goals first | decide +kernel | simp [SortedTree, SortedKids, StrictSorted, Solid, SolidKids]

/-- C151 is violated by removals below a key the base does not have: the undefined member is copied into the result, which
then is no plain object (the test `nw.type() & valueDiff` that should handle it is never true), and merging again changes
the result. -/
theorem C151_violation_undefined :
    recursiveMerge (.obj []) (.obj [([97], .obj [([98], .undef)])]) = .obj [([97], .obj [([98], .undef)])] ∧
    recursiveMerge (.obj [([97], .obj [([98], .undef)])]) (.obj [([97], .obj [([98], .undef)])]) =
      .obj [([97], .obj [])] := by decide +kernel

end Imt.Props
