import Verif.Model.Edit
import Verif.Spec.EditOps
import Verif.Spec.RefOps
import Verif.Props.ObjB
import Verif.Props.ArrayB
/-!
# Editors and references (C113, C114)
-/
namespace Imt.Props
open Imt Imt.Obj Imt.Edit Imt.Spec
open Imt.ObjB (OB defd Inv recorded cur)
open Imt.ArrB (AB)

theorem isDefd_eq : isDefd = defd := by funext v; cases v <;> rfl

/-! ## Members of sorted lists -/

theorem put_lookup (m mid : Members JV) (k : Bytes) (hm : ∀ x ∈ mid, x.1 = k) (k' : Bytes) :
    lookup (below m k ++ mid ++ above m k) k' = if k = k' then lookup mid k' else lookup m k' := by
  have filt : ∀ (p : Bytes → Bool) (l : Members JV), lookup (l.filter (fun x => p x.1)) k' = if p k' then lookup l k' else none := by
    intro p l
    induction l with
    | nil => simp [lookup]
    | cons x l ih =>
      rw [List.filter_cons]
      by_cases hx : x.1 = k'
      · by_cases hp : p k'
        · rw [if_pos (by rw [hx]; exact hp), ObjB.lookup_cons, if_pos hx, if_pos hp, ObjB.lookup_cons, if_pos hx]
        · rw [if_neg (by rw [hx]; exact hp), ih, if_neg hp, if_neg hp]
      · split
        · rw [ObjB.lookup_cons, if_neg hx, ih, ObjB.lookup_cons, if_neg hx]
        · rw [ih, ObjB.lookup_cons, if_neg hx]
  have midn : k ≠ k' → lookup mid k' = none := by
    intro hk
    induction mid with
    | nil => rfl
    | cons x mid ih =>
      rw [ObjB.lookup_cons, if_neg (by rw [hm x (by simp)]; exact hk)]
      exact ih (fun y hy => hm y (by simp [hy]))
  rw [ObjB.lookup_append, ObjB.lookup_append]
  unfold below above
  rw [filt (fun y => cmpBytes y k == .lt), filt (fun y => cmpBytes k y == .lt)]
  by_cases hk : k = k'
  · subst hk
    simp [cmpBytes_self]
  · rw [if_neg hk, midn hk]
    rcases h1 : cmpBytes k' k with _ | _ | _
    · have h2 : cmpBytes k k' = .gt := (cmpBytes_gt_iff _ _).2 h1
      simp [h2]
    · exact absurd ((cmpBytes_eq_iff _ _).1 h1).symm hk
    · simp [ObjB.cmp_gt_swap h1]

theorem put_sorted {m : Members JV} (h : StrictSorted m) (mid : Members JV) (k : Bytes) (hm : ∀ x ∈ mid, x.1 = k) (hl : mid.length ≤ 1) :
    StrictSorted (below m k ++ mid ++ above m k) := by
  have hb : ∀ x ∈ below m k, cmpBytes x.1 k = .lt := by intro x hx; simpa using (List.mem_filter.1 hx).2
  have ha : ∀ x ∈ above m k, cmpBytes k x.1 = .lt := by intro x hx; simpa using (List.mem_filter.1 hx).2
  unfold StrictSorted
  rw [List.pairwise_append, List.pairwise_append]
  refine ⟨⟨h.filter _, ?_, ?_⟩, h.filter _, ?_⟩
  · match mid, hl with
    | [], _ => exact List.Pairwise.nil
    | [_], _ => exact List.pairwise_singleton _ _
  · intro x hx y hy; rw [hm y hy]; exact hb x hx
  · intro x hx y hy
    rcases List.mem_append.1 hx with hx | hx
    · exact cmpBytes_lt_trans (hb x hx) (ha y hy)
    · rw [hm x hx]; exact ha y hy

theorem put_eq (m : Members JV) (k : Bytes) (v : JV) : put m k v = below m k ++ [(k, v)] ++ above m k := by simp [put]

theorem lookup_put' (m : Members JV) (k : Bytes) (v : JV) (k' : Bytes) :
    lookup (put m k v) k' = if k = k' then some v else lookup m k' := by
  rw [put_eq, put_lookup m [(k, v)] k (by simp)]
  by_cases hk : k = k' <;> simp [hk, lookup]

theorem sorted_put {m : Members JV} (h : StrictSorted m) (k : Bytes) (v : JV) : StrictSorted (put m k v) := by
  rw [put_eq]; exact put_sorted h _ k (by simp) (by simp)

/-- Putting back what is there changes nothing. -/
theorem put_same {m : Members JV} (h : StrictSorted m) (k : Bytes) (v : JV) (hv : lookup m k = some v) : put m k v = m := by
  apply eq_of_lookup_eq (sorted_put h k v) h
  intro k'
  rw [lookup_put' m]
  by_cases hk : k = k'
  · rw [if_pos hk, ← hk, hv]
  · rw [if_neg hk]

theorem lookup_assign (m : Members JV) (k : Bytes) (v : JV) (k' : Bytes) :
    lookup (assign m k v) k' = if k = k' then (if defd v then some v else none) else lookup m k' := by
  unfold assign
  rw [isDefd_eq]
  by_cases hv : defd v = true
  · rw [if_pos hv, lookup_put' m, if_pos hv]
  · rw [if_neg hv, if_neg hv]
    have := put_lookup m [] k (by simp) k'
    rw [List.append_nil] at this
    rw [this]
    rfl

theorem sorted_assign {m : Members JV} (h : StrictSorted m) (k : Bytes) (v : JV) : StrictSorted (assign m k v) := by
  unfold assign
  split
  · exact sorted_put h k v
  · have := put_sorted h [] k (by simp) (by simp)
    rwa [List.append_nil] at this

/-! ## Builders -/

/-- The members of the object a builder makes. -/
def content (s : OB JV) : Members JV := (ObjB.commit defd s).1

theorem content_sorted {s : OB JV} (h : Inv s) : StrictSorted (content s) := (ObjB.commit_spec defd h).2.2.2.2.2.1

theorem content_lookup {s : OB JV} (h : Inv s) (hd : s.baseDiff = false) (k : Bytes) : lookup (content s) k =
    match recorded s k with
    | some v => if defd v then some v else none
    | none => lookup s.base k := by
  unfold content
  rw [(ObjB.commit_spec defd h).2.2.2.2.2.2, hd]
  unfold ObjB.comb
  cases recorded s k with
  | none => cases lookup s.base k <;> rfl
  | some v => cases lookup s.base k <;> dsimp only [ObjB.defaultMerge] <;> cases defd v <;> rfl

theorem content_ofBase (b : Members JV) : content (ObjB.ofBase b) = b := rfl

theorem content_set {s : OB JV} (h : Inv s) (hd : s.baseDiff = false) (k : Bytes) (v : JV) :
    content (ObjB.set defd s k v) = assign (content s) k v := by
  obtain ⟨a1, a2, a3, a4, -⟩ := ObjB.setInternal_spec defd h (k, v)
  apply eq_of_lookup_eq (content_sorted a1) (sorted_assign (content_sorted h) k v)
  intro k'
  rw [lookup_assign (content s), content_lookup a1 (a4.trans hd), content_lookup h hd]
  rw [a2, a3]
  by_cases hk : k = k'
  · rw [if_pos hk, if_pos hk]
  · rw [if_neg hk, if_neg hk]

theorem dirty_iff {s : OB JV} (h : Inv s) : ObjB.dirty s = true ↔ ∃ k, recorded s k ≠ none := by
  unfold ObjB.dirty recorded
  have ne : ∀ (l : Members JV), l ≠ [] → ∃ k, lookup l k ≠ none := by
    intro l hl
    cases l with
    | nil => exact absurd rfl hl
    | cons x l => exact ⟨x.1, by rw [ObjB.lookup_cons, if_pos rfl]; simp⟩
  have ne2 : ∀ (l : Members JV), l ≠ [] → ∃ k, lastVal l k ≠ none := by
    intro l hl
    cases l with
    | nil => exact absurd rfl hl
    | cons x l => exact ⟨x.1, by rw [Ne, lastVal_none_iff]; simp⟩
  constructor
  · intro hd
    rw [Bool.or_eq_true] at hd
    rcases hd with hd | hd
    · cases ho : s.ordered with
      | none => rw [ho] at hd; cases hd
      | some o =>
        obtain ⟨k, hk⟩ := ne o (h.ordered o ho).2
        refine ⟨k, ?_⟩
        cases lastVal ((s.unordered.map (·.items)).getD []) k with
        | none => simpa using hk
        | some v => simp
    · cases hu : s.unordered with
      | none => rw [hu] at hd; cases hd
      | some u =>
        rw [hu] at hd
        obtain ⟨k, hk⟩ := ne2 u.items (by intro e; dsimp only at hd; rw [e] at hd; cases hd)
        refine ⟨k, ?_⟩
        dsimp only [Option.map_some, Option.getD_some]
        cases hv : lastVal u.items k with
        | none => exact absurd hv hk
        | some v => simp
  · rintro ⟨k, hk⟩
    rw [Bool.or_eq_true]
    cases ho : s.ordered with
    | some o =>
      left
      have := (h.ordered o ho).2
      cases o with
      | nil => exact absurd rfl this
      | cons x o => rfl
    | none =>
      right
      cases hu : s.unordered with
      | none => rw [ho, hu] at hk; exact absurd rfl hk
      | some u =>
        rw [ho, hu] at hk
        cases hi : u.items with
        | nil => simp [hi, lastVal, lookup] at hk
        | cons x l => simp [hi]

/-- A builder without changes shows its base. -/
theorem content_clean {s : OB JV} (h : Inv s) (hd : s.baseDiff = false) (hc : ObjB.dirty s = false) : content s = s.base := by
  have hr : ∀ k, recorded s k = none := by
    intro k
    by_contra hk
    rw [(dirty_iff h).2 ⟨k, hk⟩] at hc
    cases hc
  apply eq_of_lookup_eq (content_sorted h) h.base
  intro k
  rw [content_lookup h hd, hr k]

/-! ## Running scripts -/

mutual
/-- The script, done with editors: each one is destroyed at the end of its inner script. -/
def runOAct : OAct → OB JV → Res (OB JV)
  | .done, s => .ok s
  | .set k v n, s => runOAct n (ObjB.set defd s k v)
  | .obj k a n, s => do
    let r ← openOO s k
    let e ← runOAct a r.1
    runOAct n (closeOO r.2 k e)
  | .arr k a n, s => do
    let r ← openAO s k
    let e ← runAAct a r.1
    let s' ← closeAO r.2 k e
    runOAct n s'
/-- See `runOAct`. -/
def runAAct : AAct → AB JV → Res (AB JV)
  | .done, s => .ok s
  | .op o n, s => do
    let s' ← runB .undef o s
    runAAct n s'
  | .obj i a n, s => do
    let e ← openOA s i
    let e' ← runOAct a e
    let s' ← closeOA s i e'
    runAAct n s'
  | .arr i a n, s => do
    let e ← openAA s i
    let e' ← runAAct a e
    let s' ← closeAA s i e'
    runAAct n s'
end

/-- The builder that a script left over. -/
structure After (a : OAct) (s s' : OB JV) : Prop where
  inv : Inv s'
  diff : s'.baseDiff = false
  base : s'.base = s.base
  content : content s' = a.eff (content s)
  keeps : ObjB.dirty s = true → ObjB.dirty s' = true
  touch : ObjB.dirty s = false → s.base = [] → ObjB.dirty s' = a.touches

theorem cur_lookup {s : OB JV} (h : Inv s) (hd : s.baseDiff = false) (k : Bytes) :
    objBase (cur .undef s k) = (match lookup (content s) k with | some (.obj ms) => ms | _ => []) ∧
    arrBase (cur .undef s k) = (match lookup (content s) k with | some (.arr l) => l | some (.obj ms) => ms.map (·.2) | _ => []) := by
  rw [content_lookup h hd]
  unfold cur
  cases hr : recorded s k with
  | some v => cases v <;> simp [defd, objBase, arrBase]
  | none =>
    cases hb : lookup s.base k with
    | none => simp [objBase, arrBase]
    | some v => cases v <;> simp [objBase, arrBase]

theorem cur_obj {s : OB JV} (h : Inv s) (hd : s.baseDiff = false) (k : Bytes) :
    (∃ ms, lookup (content s) k = some (.obj ms) ∧ objBase (cur .undef s k) = ms ∧
      ∀ f t, editObj (content s) k f t = put (content s) k (.obj (f ms))) ∨
    ((∀ ms, lookup (content s) k ≠ some (.obj ms)) ∧ objBase (cur .undef s k) = [] ∧
      ∀ f t, editObj (content s) k f t = if t then put (content s) k (.obj (f [])) else content s) := by
  have := (cur_lookup h hd k).1
  unfold editObj
  rw [this]
  cases lookup (content s) k with
  | none => simp
  | some v => cases v <;> simp

theorem cur_arr {s : OB JV} (h : Inv s) (hd : s.baseDiff = false) (k : Bytes) :
    (∃ l, lookup (content s) k = some (.arr l) ∧ arrBase (cur .undef s k) = l ∧
      ∀ f, editArr (content s) k f = put (content s) k (.arr ((f l).filter isDefd))) ∨
    (∃ ms, lookup (content s) k = some (.obj ms)) ∨
    ((∀ P, arrOk P (lookup (content s) k) = P []) ∧ arrBase (cur .undef s k) = [] ∧
      ∀ f, editArr (content s) k f = if (f []).isEmpty then content s else put (content s) k (.arr ((f []).filter isDefd))) := by
  have := (cur_lookup h hd k).2
  unfold editArr arrOk
  rw [this]
  cases lookup (content s) k with
  | none => simp
  | some v => cases v <;> simp

theorem dirty_set {s : OB JV} (h : Inv s) (k : Bytes) (v : JV) : ObjB.dirty (ObjB.set defd s k v) = true := by
  obtain ⟨a1, a2, -⟩ := ObjB.setInternal_spec defd h (k, v)
  refine (dirty_iff a1).2 ⟨k, ?_⟩
  rw [a2, if_pos rfl]; simp

theorem inv_set {s : OB JV} (h : Inv s) (k : Bytes) (v : JV) : Inv (ObjB.set defd s k v) ∧ (ObjB.set defd s k v).base = s.base ∧
    (ObjB.set defd s k v).baseDiff = s.baseDiff := by
  obtain ⟨a1, -, a3, a4, -⟩ := ObjB.setInternal_spec defd h (k, v)
  exact ⟨a1, a3, a4⟩

theorem assign_obj (m : Members JV) (k : Bytes) (ms : Members JV) : assign m k (.obj ms) = put m k (.obj ms) := rfl
theorem assign_arr (m : Members JV) (k : Bytes) (l : List JV) : assign m k (.arr l) = put m k (.arr l) := rfl

theorem clean_rep {s : AB JV} {b l : List JV} (h : ArrB.Rep s b l) (hc : ArrB.dirty s = false) : l = b := by
  unfold ArrB.dirty at hc
  rw [Bool.or_eq_false_iff] at hc
  have h1 : s.offset = b.length := by have := hc.1; rw [h.1] at this; simpa using this
  have h2 : s.changes = [] := by have := hc.2; simpa using this
  have h3 := h.2.2
  rw [h1, h2, List.take_length, List.append_nil] at h3
  exact (List.map_injective_iff.mpr (fun _ _ => Option.some.inj) h3).symm

theorem dirty_rep_nil {s : AB JV} {l : List JV} (h : ArrB.Rep s [] l) : ArrB.dirty s = !l.isEmpty := by
  have h1 := h.2.1
  have h2 : s.offset = 0 := by simpa using h1
  have h3 := h.2.2
  unfold ArrB.dirty
  rw [h.1, h2]
  rw [h2] at h3
  simp at h3
  rw [h3]
  cases l <;> rfl

mutual
theorem runOAct_spec : ∀ (a : OAct) (s : OB JV), Inv s → s.baseDiff = false → a.Legal (content s) →
    ∃ s', runOAct a s = .ok s' ∧ After a s s'
  | .done, s, h, hd, _ => ⟨s, rfl, h, hd, rfl, by rw [OAct.eff], id, fun h _ => by rw [OAct.touches]; exact h⟩
  | .set k v n, s, h, hd, hl => by
    rw [OAct.Legal] at hl
    obtain ⟨a1, a2, a3⟩ := inv_set h k v
    obtain ⟨s', e, hA⟩ := runOAct_spec n (ObjB.set defd s k v) a1 (a3.trans hd) (by rw [content_set h hd]; exact hl)
    have ht := hA.keeps (dirty_set h k v)
    refine ⟨s', by rw [runOAct]; exact e, hA.inv, hA.diff, hA.base.trans a2, ?_, fun _ => ht, fun _ _ => by rw [ht, OAct.touches]⟩
    rw [hA.content, content_set h hd, OAct.eff]
  | .obj k a n, s, h, hd, hl => by
    rw [OAct.Legal] at hl
    obtain ⟨s1, g1, g2, g3, g4, g5, -⟩ := ObjB.get_spec defd h .undef k
    have hd1 := g5.trans hd
    have c1 : content s1 = content s := ObjB.commit_congr defd h g2 g3 g4 g5
    have dd : ObjB.dirty s1 = ObjB.dirty s := by
      rw [Bool.eq_iff_iff, dirty_iff g2, dirty_iff h]
      exact exists_congr (fun k => by rw [g3])
    -- the editor
    have hcase := cur_obj h hd k
    have hsl : StrictSorted (objBase (cur .undef s k)) ∧ a.Legal (objBase (cur .undef s k)) := by
      rcases hcase with ⟨ms, c2, c3, -⟩ | ⟨c2, c3, -⟩
      · have := hl.1
        rw [c2] at this
        rw [c3]
        exact this
      · rw [c3]
        refine ⟨List.Pairwise.nil, ?_⟩
        have := hl.1
        unfold objOk at this
        split at this
        · next ms hms => exact absurd hms (c2 ms)
        · exact this
    obtain ⟨hsrt, hleg⟩ := hsl
    obtain ⟨e, r1, hE⟩ := runOAct_spec a (ObjB.ofBase (objBase (cur .undef s k))) (ObjB.inv_ofBase _ hsrt) rfl hleg
    have hEc : content e = a.eff (objBase (cur .undef s k)) := hE.content
    -- the parent afterwards
    have hclose : content (closeOO s1 k e) = editObj (content s) k a.eff a.touches ∧ Inv (closeOO s1 k e) ∧
        (closeOO s1 k e).baseDiff = false ∧ (closeOO s1 k e).base = s.base ∧
        (ObjB.dirty (closeOO s1 k e) = (ObjB.dirty s || ObjB.dirty e)) := by
      unfold closeOO
      cases hde : ObjB.dirty e with
      | true =>
        rw [if_pos rfl]
        obtain ⟨a1, a2, a3⟩ := inv_set g2 k (.obj (ObjB.commit defd e).1)
        refine ⟨?_, a1, a3.trans hd1, a2.trans g4, by rw [dirty_set g2]; simp⟩
        rw [content_set g2 hd1, c1, assign_obj, show (ObjB.commit defd e).1 = content e from rfl, hEc]
        rcases hcase with ⟨ms, -, c3, c4⟩ | ⟨-, c3, c4⟩
        · rw [c4, c3]
        · rw [c4, c3, if_pos (by rw [← hE.touch rfl c3]; exact hde)]
      | false =>
        rw [if_neg (by simp)]
        refine ⟨?_, g2, hd1, g4, by rw [dd]; simp⟩
        have hcl := content_clean hE.inv hE.diff hde
        rw [hEc, hE.base, show (ObjB.ofBase (objBase (cur .undef s k)) : OB JV).base = objBase (cur .undef s k) from rfl] at hcl
        rw [c1]
        rcases hcase with ⟨ms, c2, c3, c4⟩ | ⟨-, c3, c4⟩
        · rw [c3] at hcl
          rw [c4, hcl]
          exact (put_same (content_sorted h) k _ c2).symm
        · rw [c4, if_neg (by rw [← hE.touch rfl c3, hde]; simp)]
    obtain ⟨k1, k2, k3, k4, k5⟩ := hclose
    obtain ⟨s', e2, hA⟩ := runOAct_spec n (closeOO s1 k e) k2 k3 (by rw [k1]; exact hl.2)
    refine ⟨s', ?_, hA.inv, hA.diff, hA.base.trans k4, ?_, ?_, ?_⟩
    · rw [runOAct]
      unfold openOO
      rw [g1]
      simp only [Res.bind_ok, Res.pure_eq]
      rw [r1]
      exact e2
    · rw [hA.content, k1, OAct.eff]
    · intro hs
      exact hA.keeps (by rw [k5, hs]; rfl)
    · intro hs hbs
      have hbe : objBase (cur .undef s k) = [] := by
        rcases hcase with ⟨ms, c2, -, -⟩ | ⟨-, c3, -⟩
        · rw [content_clean h hd hs, hbs] at c2
          cases c2
        · exact c3
      have ht : ObjB.dirty e = a.touches := hE.touch rfl hbe
      rw [OAct.touches, ← ht]
      cases hde : ObjB.dirty e with
      | true => rw [hA.keeps (by rw [k5, hde]; simp)]; rfl
      | false => rw [hA.touch (by rw [k5, hde, hs]; rfl) (k4.trans hbs)]; rfl
  | .arr k a n, s, h, hd, hl => by
    rw [OAct.Legal] at hl
    obtain ⟨s1, g1, g2, g3, g4, g5, -⟩ := ObjB.get_spec defd h .undef k
    have hd1 := g5.trans hd
    have c1 : content s1 = content s := ObjB.commit_congr defd h g2 g3 g4 g5
    have dd : ObjB.dirty s1 = ObjB.dirty s := by
      rw [Bool.eq_iff_iff, dirty_iff g2, dirty_iff h]
      exact exists_congr (fun k => by rw [g3])
    have hok := hl.1
    have hcase : (∃ l, lookup (content s) k = some (.arr l) ∧ arrBase (cur .undef s k) = l ∧
        ∀ f, editArr (content s) k f = put (content s) k (.arr ((f l).filter isDefd))) ∨
        ((∀ P, arrOk P (lookup (content s) k) = P []) ∧ arrBase (cur .undef s k) = [] ∧
        ∀ f, editArr (content s) k f = if (f []).isEmpty then content s else put (content s) k (.arr ((f []).filter isDefd))) := by
      rcases cur_arr h hd k with h1 | ⟨ms, h1⟩ | h1
      · exact Or.inl h1
      · rw [h1] at hok; exact hok.elim
      · exact Or.inr h1
    have hsl : (∀ x ∈ arrBase (cur .undef s k), defd x = true) ∧ a.Legal (arrBase (cur .undef s k)) (arrBase (cur .undef s k)) := by
      rcases hcase with ⟨l, c2, c3, -⟩ | ⟨c2, c3, -⟩
      · rw [c2] at hok
        rw [c3, ← isDefd_eq]
        exact hok
      · rw [c2] at hok
        rw [c3]
        exact ⟨by simp, hok⟩
    obtain ⟨hdef, hleg⟩ := hsl
    obtain ⟨e, r1, hE⟩ := runAAct_spec a (ArrB.ofBase (arrBase (cur .undef s k))) _ _ (ArrB.rep_ofBase _) hdef hleg
    have hcm := ArrB.rep_commit_def hE defd .undef hdef
    have hclose : ∃ s2, closeAO s1 k e = .ok s2 ∧ content s2 = editArr (content s) k (fun l => a.eff l l) ∧ Inv s2 ∧
        s2.baseDiff = false ∧ s2.base = s.base ∧ ObjB.dirty s2 = (ObjB.dirty s || ArrB.dirty e) := by
      unfold closeAO
      cases hde : ArrB.dirty e with
      | true =>
        rw [if_pos rfl, hcm]
        obtain ⟨a1, a2, a3⟩ := inv_set g2 k (.arr ((a.eff (arrBase (cur .undef s k)) (arrBase (cur .undef s k))).filter defd))
        refine ⟨_, rfl, ?_, a1, a3.trans hd1, a2.trans g4, by rw [dirty_set g2]; simp⟩
        rw [content_set g2 hd1, c1, assign_arr]
        rcases hcase with ⟨l, -, c3, c4⟩ | ⟨-, c3, c4⟩
        · rw [c4, c3, isDefd_eq]
        · rw [c3] at hE
          rw [dirty_rep_nil hE] at hde
          rw [c4, c3, isDefd_eq, if_neg (by intro hc; rw [hc] at hde; cases hde)]
      | false =>
        rw [if_neg (by simp)]
        refine ⟨_, rfl, ?_, g2, hd1, g4, by rw [dd]; simp⟩
        have hcl := clean_rep hE hde
        rw [c1]
        rcases hcase with ⟨l, c2, c3, c4⟩ | ⟨-, c3, c4⟩
        · rw [c3] at hcl hdef
          rw [c4, hcl, isDefd_eq, List.filter_eq_self.2 hdef]
          exact (put_same (content_sorted h) k _ c2).symm
        · rw [c3] at hcl
          rw [c4, if_pos (by rw [hcl]; rfl)]
    obtain ⟨s2, k0, k1, k2, k3, k4, k5⟩ := hclose
    obtain ⟨s', e2, hA⟩ := runOAct_spec n s2 k2 k3 (by rw [k1]; exact hl.2)
    refine ⟨s', ?_, hA.inv, hA.diff, hA.base.trans k4, ?_, ?_, ?_⟩
    · rw [runOAct]
      unfold openAO
      rw [g1]
      simp only [Res.bind_ok, Res.pure_eq]
      rw [r1]
      simp only [Res.bind_ok]
      rw [k0]
      exact e2
    · rw [hA.content, k1, OAct.eff]
    · intro hs
      exact hA.keeps (by rw [k5, hs]; rfl)
    · intro hs hbs
      have hbe : arrBase (cur .undef s k) = [] := by
        rcases hcase with ⟨ms, c2, -, -⟩ | ⟨-, c3, -⟩
        · rw [content_clean h hd hs, hbs] at c2
          cases c2
        · exact c3
      rw [hbe] at hE
      rw [OAct.touches, ← dirty_rep_nil hE]
      cases hde : ArrB.dirty e with
      | true => rw [hA.keeps (by rw [k5, hde]; simp)]; rfl
      | false => rw [hA.touch (by rw [k5, hde, hs]; rfl) (k4.trans hbs)]; rfl
theorem runAAct_spec : ∀ (a : AAct) (s : AB JV) (b l : List JV), ArrB.Rep s b l → (∀ x ∈ b, defd x = true) → a.Legal b l →
    ∃ s', runAAct a s = .ok s' ∧ ArrB.Rep s' b (a.eff b l)
  | .done, s, b, l, h, _, _ => ⟨s, rfl, by rw [AAct.eff]; exact h⟩
  | .op o n, s, b, l, h, hb, hl => by
    rw [AAct.Legal] at hl
    obtain ⟨s1, e1, h1⟩ := runB_rep .undef o h hl.1
    rw [show (o.run (b, l)).1 = b by rw [hl.2.1 l]] at h1
    obtain ⟨s2, e2, h2⟩ := runAAct_spec n s1 b _ h1 hb hl.2.2
    exact ⟨s2, by rw [runAAct, e1]; exact e2, by rw [AAct.eff]; exact h2⟩
  | .obj i a n, s, b, l, h, hb, hl => by
    rw [AAct.Legal] at hl
    obtain ⟨hi, hok, hn⟩ := hl
    have hget := ArrB.rep_get h .undef hi
    rw [List.getElem?_eq_getElem hi] at hok
    have hsrt : StrictSorted (objBase l[i]) := by
      cases hv : l[i] with
      | obj ms => rw [hv] at hok; exact hok.1
      | _ => exact List.Pairwise.nil
    have hleg : a.Legal (objBase l[i]) := by
      cases hv : l[i] with
      | obj ms => rw [hv] at hok; exact hok.2
      | _ => rw [hv] at hok; exact hok
    obtain ⟨e, r1, hE⟩ := runOAct_spec a (ObjB.ofBase (objBase l[i])) (ObjB.inv_ofBase _ hsrt) rfl hleg
    have hEc : content e = a.eff (objBase l[i]) := hE.content
    have hclose : ∃ s1, closeOA s i e = .ok s1 ∧ ArrB.Rep s1 b (editItemObj l i a.eff a.touches) := by
      unfold closeOA
      cases hde : ObjB.dirty e with
      | true =>
        rw [if_pos rfl]
        obtain ⟨s1, e1, h1⟩ := ArrB.rep_set h .undef hi (.obj (ObjB.commit defd e).1)
        refine ⟨s1, e1, ?_⟩
        rw [show (ObjB.commit defd e).1 = content e from rfl, hEc] at h1
        rw [show l.take i ++ JV.obj (a.eff (objBase l[i])) :: l.drop (i + 1) = l.set i (.obj (a.eff (objBase l[i]))) by rw [List.set_eq_take_append_cons_drop, if_pos hi]] at h1
        unfold editItemObj
        rw [List.getElem?_eq_getElem hi]
        cases hv : l[i] with
        | obj ms => rw [hv] at h1; exact h1
        | _ =>
          rw [hv] at h1 hE
          rw [if_pos (by rw [← hE.touch rfl rfl]; exact hde)]
          exact h1
      | false =>
        rw [if_neg (by simp)]
        refine ⟨s, rfl, ?_⟩
        have hcl := content_clean hE.inv hE.diff hde
        rw [hEc, hE.base, show (ObjB.ofBase (objBase l[i]) : OB JV).base = objBase l[i] from rfl] at hcl
        unfold editItemObj
        rw [List.getElem?_eq_getElem hi]
        cases hv : l[i] with
        | obj ms =>
          rw [hv] at hcl
          dsimp only [objBase] at hcl ⊢
          rw [hcl, ← hv, List.set_getElem_self]
          exact h
        | _ =>
          rw [hv] at hE
          rw [if_neg (by rw [← hE.touch rfl rfl, hde]; simp)]
          exact h
    obtain ⟨s1, k0, k1⟩ := hclose
    obtain ⟨s', e2, h2⟩ := runAAct_spec n s1 b _ k1 hb hn
    refine ⟨s', ?_, by rw [AAct.eff]; exact h2⟩
    rw [runAAct]
    unfold openOA
    rw [hget]
    simp only [Res.bind_ok, Res.pure_eq]
    rw [r1]
    simp only [Res.bind_ok]
    rw [k0]
    exact e2
  | .arr i a n, s, b, l, h, hb, hl => by
    rw [AAct.Legal] at hl
    obtain ⟨hi, hok, hn⟩ := hl
    have hget := ArrB.rep_get h .undef hi
    rw [List.getElem?_eq_getElem hi] at hok
    have hdef : ∀ x ∈ arrBase l[i], defd x = true := by
      cases hv : l[i] with
      | arr x => rw [hv] at hok; rw [← isDefd_eq]; exact hok.1
      | obj ms => rw [hv] at hok; exact hok.elim
      | _ => simp [arrBase]
    have hleg : a.Legal (arrBase l[i]) (arrBase l[i]) := by
      cases hv : l[i] with
      | arr x => rw [hv] at hok; exact hok.2
      | obj ms => rw [hv] at hok; exact hok.elim
      | _ => rw [hv] at hok; exact hok
    obtain ⟨e, r1, hE⟩ := runAAct_spec a (ArrB.ofBase (arrBase l[i])) _ _ (ArrB.rep_ofBase _) hdef hleg
    have hcm := ArrB.rep_commit_def hE defd .undef hdef
    have hclose : ∃ s1, closeAA s i e = .ok s1 ∧ ArrB.Rep s1 b (editItemArr l i (fun x => a.eff x x)) := by
      unfold closeAA
      cases hde : ArrB.dirty e with
      | true =>
        rw [if_pos rfl, hcm]
        obtain ⟨s1, e1, h1⟩ := ArrB.rep_set h .undef hi (.arr ((a.eff (arrBase l[i]) (arrBase l[i])).filter defd))
        refine ⟨s1, e1, ?_⟩
        rw [show l.take i ++ JV.arr ((a.eff (arrBase l[i]) (arrBase l[i])).filter defd) :: l.drop (i + 1) = l.set i (.arr ((a.eff (arrBase l[i]) (arrBase l[i])).filter defd)) by rw [List.set_eq_take_append_cons_drop, if_pos hi]] at h1
        unfold editItemArr
        rw [List.getElem?_eq_getElem hi, isDefd_eq]
        cases hv : l[i] with
        | arr x => rw [hv] at h1; exact h1
        | obj ms => rw [hv] at hok; exact hok.elim
        | _ =>
          rw [hv] at h1 hE
          dsimp only [arrBase] at h1 hE ⊢
          rw [dirty_rep_nil hE] at hde
          rw [if_neg (by intro hc; rw [hc] at hde; cases hde)]
          exact h1
      | false =>
        rw [if_neg (by simp)]
        refine ⟨s, rfl, ?_⟩
        have hcl := clean_rep hE hde
        unfold editItemArr
        rw [List.getElem?_eq_getElem hi, isDefd_eq]
        cases hv : l[i] with
        | arr x =>
          rw [hv] at hcl hdef
          dsimp only [arrBase] at hcl hdef ⊢
          rw [hcl, List.filter_eq_self.2 hdef, ← hv, List.set_getElem_self]
          exact h
        | obj ms => rw [hv] at hok; exact hok.elim
        | _ =>
          rw [hv] at hcl
          dsimp only [arrBase] at hcl ⊢
          rw [if_pos (by rw [hcl]; rfl)]
          exact h
    obtain ⟨s1, k0, k1⟩ := hclose
    obtain ⟨s', e2, h2⟩ := runAAct_spec n s1 b _ k1 hb hn
    refine ⟨s', ?_, by rw [AAct.eff]; exact h2⟩
    rw [runAAct]
    unfold openAA
    rw [hget]
    simp only [Res.bind_ok, Res.pure_eq]
    rw [r1]
    simp only [Res.bind_ok]
    rw [k0]
    exact e2
end

/-- **C113.** Whatever is done to an object with editors of its members, of the members of those, and so on, each destroyed at the
end of its block: the object made at the end is the one that the edits, done in place in the order they were made, give; the
base of the builder is as before. -/
theorem C113_object (m : Members JV) (h : StrictSorted m) (a : OAct) (hl : a.Legal m) :
    ∃ s, runOAct a (ObjB.ofBase m) = .ok s ∧ (ObjB.commit defd s).1 = a.eff m ∧ s.base = m := by
  obtain ⟨s, e, hA⟩ := runOAct_spec a (ObjB.ofBase m) (ObjB.inv_ofBase _ h) rfl hl
  exact ⟨s, e, hA.content, hA.base⟩

/-- **C113.** The same for arrays; undefined items vanish when the array is made. -/
theorem C113_array (l : List JV) (h : ∀ x ∈ l, isDefd x = true) (a : AAct) (hl : a.Legal l l) :
    ∃ s, runAAct a (ArrB.ofBase l) = .ok s ∧ ArrB.commit defd .undef s = .ok ((a.eff l l).filter isDefd) ∧ s.base = l := by
  rw [isDefd_eq] at *
  obtain ⟨s, e, hR⟩ := runAAct_spec a (ArrB.ofBase l) l l (ArrB.rep_ofBase _) h hl
  exact ⟨s, e, ArrB.rep_commit_def hR defd .undef h, hR.1⟩

/-- The keys a script names at its own level. -/
def topKeys : OAct → List Bytes
  | .done => []
  | .set k _ n => k :: topKeys n
  | .obj k _ n => k :: topKeys n
  | .arr k _ n => k :: topKeys n

theorem eff_other : ∀ (a : OAct) (m : Members JV) (k : Bytes), k ∉ topKeys a → lookup (a.eff m) k = lookup m k
  | .done, m, k, _ => by rw [OAct.eff]
  | .set k' v n, m, k, h => by
    rw [topKeys, List.mem_cons, not_or] at h
    rw [OAct.eff, eff_other n _ k h.2, lookup_assign, if_neg (Ne.symm h.1)]
  | .obj k' a n, m, k, h => by
    rw [topKeys, List.mem_cons, not_or] at h
    rw [OAct.eff, eff_other n _ k h.2]
    unfold editObj
    split
    · rw [lookup_put', if_neg (Ne.symm h.1)]
    · split
      · rw [lookup_put', if_neg (Ne.symm h.1)]
      · rfl
  | .arr k' a n, m, k, h => by
    rw [topKeys, List.mem_cons, not_or] at h
    rw [OAct.eff, eff_other n _ k h.2]
    unfold editArr
    split
    · rw [lookup_put', if_neg (Ne.symm h.1)]
    · split
      · rfl
      · rw [lookup_put', if_neg (Ne.symm h.1)]

/-- **C113.** Members that the script does not name at the top are not changed, whatever is done below the others. -/
theorem C113_others (m : Members JV) (h : StrictSorted m) (a : OAct) (hl : a.Legal m) :
    ∃ s, runOAct a (ObjB.ofBase m) = .ok s ∧ ∀ k ∉ topKeys a, lookup (ObjB.commit defd s).1 k = lookup m k := by
  obtain ⟨s, e, hc, -⟩ := C113_object m h a hl
  exact ⟨s, e, fun k hk => by rw [hc]; exact eff_other a m k hk⟩

/-- `{"a":{"b":[1]},"c":2}`: add 3 and a new object to `a.b`, and make `a.d` an object. -/
def nestedScript : OAct :=
  .obj [97] (.arr [98] (.op (.add (.bool true)) (.obj 0 (.set [120] .null .done) .done)) (.obj [100] (.set [101] .null .done) .done)) (.set [99] .undef .done)

example : StrictSorted [([97], JV.obj [([98], .arr [.null])]), ([99], .null)] ∧
    nestedScript.Legal [([97], JV.obj [([98], .arr [.null])]), ([99], .null)] ∧
    nestedScript.eff [([97], JV.obj [([98], .arr [.null])]), ([99], .null)] =
      [([97], .obj [([98], .arr [.obj [([120], .null)], .bool true]), ([100], .obj [([101], .null)])])] := by
  refine ⟨by simp [StrictSorted, cmpBytes], ?_, by rfl⟩
  simp [nestedScript, OAct.Legal, AAct.Legal, objOk, arrOk, lookup, LOp.InRange, LOp.run, StrictSorted, isDefd]
  exact trivial

/-- **C113 does not hold with `commit()` of an editor**: after `commit()` the editor is back at the value it was made from
(`revert()`), not at the committed one. What is done with it afterwards replaces what was committed: for every object `ms` under a
key, setting `x`, committing, setting `y` and leaving the block gives `ms` with `y`, without `x`. -/
theorem C113_violation_commit (m ms : Members JV) (h : StrictSorted m) (hs : StrictSorted ms) (k : Bytes) (hk : lookup m k = some (.obj ms))
    (x y : Bytes) (v w : JV) : ∃ e s, openOO (ObjB.ofBase m) k = .ok (e, s) ∧
    (let c := commitOO s k (ObjB.set defd e x v)
     content c.1 = put m k (.obj (assign ms x v)) ∧
     content (closeOO c.1 k (ObjB.set defd c.2 y w)) = put m k (.obj (assign ms y w))) := by
  have hi := ObjB.inv_ofBase false h
  obtain ⟨s1, g1, g2, g3, g4, g5, -⟩ := ObjB.get_spec defd hi .undef k
  have c1 : content s1 = m := ObjB.commit_congr defd hi g2 g3 g4 g5
  have hc : objBase (cur .undef (ObjB.ofBase m) k) = ms := by
    rw [(cur_lookup hi rfl k).1, content_ofBase, hk]
  have he := ObjB.inv_ofBase false hs
  refine ⟨ObjB.ofBase ms, s1, ?_, ?_⟩
  · unfold openOO
    rw [g1]
    simp only [Res.bind_ok, Res.pure_eq]
    rw [hc]
  obtain ⟨i1, b1, d1⟩ := inv_set he x v
  have hd := dirty_set he x v
  dsimp only [commitOO]
  rw [if_pos hd]
  have h1 : closeOO s1 k (ObjB.set defd (ObjB.ofBase ms) x v) = ObjB.set defd s1 k (.obj (assign ms x v)) := by
    unfold closeOO
    rw [if_pos hd, show (ObjB.commit defd (ObjB.set defd (ObjB.ofBase ms) x v)).1 = content (ObjB.set defd (ObjB.ofBase ms) x v) from rfl,
      content_set he rfl, content_ofBase]
  rw [h1]
  obtain ⟨i2, b2, d2⟩ := inv_set g2 k (.obj (assign ms x v))
  have e1 : content (ObjB.set defd s1 k (.obj (assign ms x v))) = put m k (.obj (assign ms x v)) := by
    rw [content_set g2 g5, c1, assign_obj]
  refine ⟨e1, ?_⟩
  have ir : Inv (ObjB.revert (ObjB.set defd (ObjB.ofBase ms) x v)) := ⟨i1.base, by simp [ObjB.revert], by simp [ObjB.revert], by simp [ObjB.revert]⟩
  have dr : (ObjB.revert (ObjB.set defd (ObjB.ofBase ms) x v)).baseDiff = false := d1
  have cr : content (ObjB.revert (ObjB.set defd (ObjB.ofBase ms) x v)) = ms := by
    rw [content_clean ir dr rfl]
    exact b1
  unfold closeOO
  rw [if_pos (dirty_set ir y w), show ∀ z : OB JV, (ObjB.commit defd z).1 = content z from fun _ => rfl, content_set ir dr, cr,
    content_set i2 (d2.trans g5), e1, assign_obj]
  apply eq_of_lookup_eq (sorted_put (sorted_put h _ _) _ _) (sorted_put h _ _)
  intro k'
  rw [lookup_put', lookup_put', lookup_put']
  split <;> rfl

example : StrictSorted [([97], JV.obj [])] ∧ StrictSorted ([] : Members JV) ∧ lookup [([97], JV.obj [])] [97] = some (.obj []) ∧
    assign [] [121] .null = [([121], JV.null)] := ⟨by simp [StrictSorted], List.Pairwise.nil, rfl, rfl⟩

/-- C113: what `commit()` of an array editor leaves behind: the parent is as after the end of the block, the editor shows the
array it was made from again and counts as unchanged (so, as for objects, what was committed is lost by later changes). -/
theorem C113_commit_array (s : OB JV) (k : Bytes) {e : AB JV} {b l : List JV} (h : ArrB.Rep e b l) :
    ∃ e', commitAO s k e = (do let s' ← closeAO s k e; pure (s', e')) ∧ ArrB.Rep e' b b ∧ ArrB.dirty e' = false := by
  refine ⟨_, rfl, ?_, ?_⟩
  · split
    · exact ArrB.rep_revert h
    · rename_i hd
      have := clean_rep h (by simpa using hd)
      rwa [this] at h
  · split
    · obtain ⟨h1, -, -⟩ := h
      simp [ArrB.dirty, ArrB.revert, h1]
    · rename_i hd; simpa using hd

example : ArrB.Rep (⟨[.null], [some (.bool true)], 1⟩ : AB JV) [.null] [.null, .bool true] := ⟨rfl, by decide, rfl⟩

/-- **C113 does not hold with `reverse()`** (excluded by `Legal`): `reverse()` makes a new array without base, so a following
`clear()` leaves an editor that counts as unchanged, and the parent keeps the old array `[null, true]` instead of the empty one. -/
theorem C113_violation_reverse_clear : ∃ e s, openAO (ObjB.ofBase [([97], .arr [.null, .bool true])]) [97] = .ok (e, s) ∧
    ∃ e1, ArrB.reverse .undef e = .ok e1 ∧ ArrB.commit defd .undef (ArrB.clear e1) = .ok [] ∧
    closeAO s [97] (ArrB.clear e1) = .ok s ∧ content s = [([97], .arr [.null, .bool true])] :=
  ⟨ArrB.ofBase [.null, .bool true], ObjB.ofBase [([97], .arr [.null, .bool true])],
    by unfold openAO ObjB.get; dsimp only [ObjB.ofBase]; rw [member_eq_lookup (by simp [StrictSorted])]; rfl,
    ⟨[], [some (.bool true), some .null], 0⟩, rfl, rfl, rfl, rfl⟩

/-! ## References -/

/-- One step with the model. -/
def vrefStep : RefOp → OB JV × List (Bytes × JV) → Res (OB JV × List (Bytes × JV))
  | .make k, (s, r) => do
    let x ← refObj s k
    pure (x.2, r ++ [(k, x.1)])
  | .assign i v, (s, r) => match r[i]? with
    | some x => let y := assignObj s x.1 v; .ok (y.2, r.set i (x.1, y.1))
    | none => .ok (s, r)
  | .copy i j, (s, r) => match r[i]?, r[j]? with
    | some x, some z => let y := assignObj s x.1 z.2; .ok (y.2, r.set i (x.1, y.1))
    | _, _ => .ok (s, r)
  | .sync i, (s, r) => match r[i]? with
    | some x => do
      let y ← refObj s x.1
      pure (y.2, r.set i (x.1, y.1))
    | none => .ok (s, r)
  | .put k v, (s, r) => .ok (ObjB.set defd s k v, r)

/-- Steps in a row. -/
def vrefRun : List RefOp → OB JV × List (Bytes × JV) → Res (OB JV × List (Bytes × JV))
  | [], s => .ok s
  | o :: os, s => do
    let s' ← vrefStep o s
    vrefRun os s'

theorem vrefStep_spec (o : RefOp) (s : OB JV) (r : List (Bytes × JV)) (h : Inv s) (hd : s.baseDiff = false) :
    ∃ s' r', vrefStep o (s, r) = .ok (s', r') ∧ Inv s' ∧ s'.baseDiff = false ∧ s'.base = s.base ∧ (cur .undef s', r') = o.eff (cur .undef s, r) := by
  have hset : ∀ k v, cur .undef (ObjB.set defd s k v) = setAt (cur .undef s) k v := fun k v => funext fun k' => ObjB.set_cur defd h _ k v k'
  have hget : ∀ k, ∃ s', ObjB.get defd .undef s k = .ok (cur .undef s k, s') ∧ Inv s' ∧ s'.baseDiff = false ∧ s'.base = s.base ∧
      cur .undef s' = cur .undef s := by
    intro k
    obtain ⟨s1, g1, g2, g3, g4, g5, -⟩ := ObjB.get_spec defd h .undef k
    refine ⟨s1, g1, g2, g5.trans hd, g4, funext fun k' => ?_⟩
    unfold cur
    rw [g3, g4]
  have hw : ∀ k v, Inv (ObjB.set defd s k v) ∧ (ObjB.set defd s k v).baseDiff = false ∧ (ObjB.set defd s k v).base = s.base := by
    intro k v
    obtain ⟨a1, a2, a3⟩ := inv_set h k v
    exact ⟨a1, a3.trans hd, a2⟩
  cases o with
  | make k =>
    obtain ⟨s1, e, h1, h2, h3, h4⟩ := hget k
    refine ⟨s1, r ++ [(k, cur .undef s k)], by unfold vrefStep refObj; dsimp only; rw [e]; rfl, h1, h2, h3, ?_⟩
    rw [h4]; rfl
  | assign i v =>
    unfold vrefStep RefOp.eff assignObj
    dsimp only
    cases r[i]? with
    | none => exact ⟨_, _, rfl, h, hd, rfl, rfl⟩
    | some x =>
      obtain ⟨w1, w2, w3⟩ := hw x.1 v
      exact ⟨_, _, rfl, w1, w2, w3, by rw [hset]⟩
  | copy i j =>
    unfold vrefStep RefOp.eff assignObj
    dsimp only
    cases r[i]? with
    | none => exact ⟨_, _, rfl, h, hd, rfl, rfl⟩
    | some x =>
      cases r[j]? with
      | none => exact ⟨_, _, rfl, h, hd, rfl, rfl⟩
      | some z =>
        obtain ⟨w1, w2, w3⟩ := hw x.1 z.2
        exact ⟨_, _, rfl, w1, w2, w3, by rw [hset]⟩
  | sync i =>
    unfold vrefStep RefOp.eff refObj
    dsimp only
    cases r[i]? with
    | none => exact ⟨_, _, rfl, h, hd, rfl, rfl⟩
    | some x =>
      obtain ⟨s1, e, h1, h2, h3, h4⟩ := hget x.1
      refine ⟨s1, r.set i (x.1, cur .undef s x.1), by dsimp only; rw [e]; rfl, h1, h2, h3, ?_⟩
      rw [h4]
  | put k v =>
    obtain ⟨w1, w2, w3⟩ := hw k v
    exact ⟨_, _, rfl, w1, w2, w3, by rw [hset]; rfl⟩

theorem vrefRun_spec : ∀ (os : List RefOp) (s : OB JV) (r : List (Bytes × JV)), Inv s → s.baseDiff = false →
    ∃ s' r', vrefRun os (s, r) = .ok (s', r') ∧ Inv s' ∧ s'.baseDiff = false ∧
      (cur .undef s', r') = os.foldl (fun st o => o.eff st) (cur .undef s, r)
  | [], s, r, h, hd => ⟨s, r, rfl, h, hd, rfl⟩
  | o :: os, s, r, h, hd => by
    obtain ⟨s1, r1, e1, h1, d1, -, c1⟩ := vrefStep_spec o s r h hd
    obtain ⟨s2, r2, e2, h2, d2, c2⟩ := vrefRun_spec os s1 r1 h1 d1
    exact ⟨s2, r2, by rw [vrefRun, e1]; exact e2, h2, d2, by rw [c2, c1]; rfl⟩

/-- The values of the members of an object: undefined when missing. -/
def valueOf (m : Members JV) (k : Bytes) : JV := (lookup m k).getD .undef

/-- **C114.** References to members of an object, any number of them, to the same or different keys, mixed with direct changes: an
assignment writes the member the reference was made for and no other, and the copy in that reference and no other; `sync` shows
the value the object has now; everything else leaves the copies alone. The object made at the end has the values so written. -/
theorem C114_object (m : Members JV) (h : StrictSorted m) (os : List RefOp) :
    ∃ s r, vrefRun os (ObjB.ofBase m, []) = .ok (s, r) ∧
      (valueOf (ObjB.commit defd s).1, r) = os.foldl (fun st o => o.eff st) (valueOf m, []) := by
  obtain ⟨s, r, e, hi, hd, hc⟩ := vrefRun_spec os (ObjB.ofBase m) [] (ObjB.inv_ofBase false h) rfl
  have hv : ∀ s : OB JV, Inv s → s.baseDiff = false → cur .undef s = valueOf (content s) := by
    intro s hi hd
    funext k
    unfold valueOf cur
    rw [content_lookup hi hd]
    cases recorded s k with
    | none => rfl
    | some v => cases v <;> rfl
  refine ⟨s, r, e, ?_⟩
  rw [hv s hi hd, hv (ObjB.ofBase m) (ObjB.inv_ofBase false h) rfl, content_ofBase] at hc
  exact hc

example : StrictSorted [([97], JV.null)] ∧ ([RefOp.make [97], .make [97], .assign 0 (.bool true), .sync 1, .put [97] .undef].foldl (fun st o => o.eff st)
    (valueOf [([97], .null)], [])).2 = [([97], .bool true), ([97], .bool true)] :=
  ⟨by simp [StrictSorted], rfl⟩

/-- One step with the model. -/
def irefStep : IRefOp → AB JV × List (Nat × JV) → Res (AB JV × List (Nat × JV))
  | .make p, (s, r) => do
    let v ← refArr s p
    pure (s, r ++ [(p, v)])
  | .assign i v, (s, r) => match r[i]? with
    | some x => do
      let y ← assignArr s x.1 v
      pure (y.2, r.set i (x.1, y.1))
    | none => .ok (s, r)
  | .copy i j, (s, r) => match r[i]?, r[j]? with
    | some x, some z => do
      let y ← assignArr s x.1 z.2
      pure (y.2, r.set i (x.1, y.1))
    | _, _ => .ok (s, r)
  | .sync i, (s, r) => match r[i]? with
    | some x => do
      let v ← refArr s x.1
      pure (s, r.set i (x.1, v))
    | none => .ok (s, r)
  | .op o, (s, r) => do
    let s' ← runB .undef o s
    pure (s', r)

/-- Steps in a row. -/
def irefRun : List IRefOp → AB JV × List (Nat × JV) → Res (AB JV × List (Nat × JV))
  | [], s => .ok s
  | o :: os, s => do
    let s' ← irefStep o s
    irefRun os s'

theorem irefStep_spec (o : IRefOp) (s : AB JV) (b l : List JV) (r : List (Nat × JV)) (h : ArrB.Rep s b l) (ho : o.Ok ((b, l), r)) :
    ∃ s' r', irefStep o (s, r) = .ok (s', r') ∧ ArrB.Rep s' (o.eff ((b, l), r)).1.1 (o.eff ((b, l), r)).1.2 ∧ r' = (o.eff ((b, l), r)).2 := by
  have hset : ∀ p v, p < l.length → ∃ s', ArrB.set .undef s p v = .ok s' ∧ ArrB.Rep s' b (l.set p v) := by
    intro p v hp
    obtain ⟨s', e, h'⟩ := ArrB.rep_set h .undef hp v
    refine ⟨s', e, ?_⟩
    rwa [List.set_eq_take_append_cons_drop, if_pos hp]
  have hget : ∀ p, p < l.length → ArrB.get .undef s p = .ok (l.getD p .undef) := by
    intro p hp
    rw [ArrB.rep_get h .undef hp, List.getD_eq_getElem?_getD, List.getElem?_eq_getElem hp]
    rfl
  cases o with
  | make p => exact ⟨s, _, by unfold irefStep refArr; dsimp only; rw [hget p ho]; rfl, h, rfl⟩
  | assign i v =>
    unfold irefStep IRefOp.eff assignArr
    dsimp only [IRefOp.Ok] at ho ⊢
    cases hx : r[i]? with
    | none => exact ⟨_, _, rfl, h, rfl⟩
    | some x =>
      obtain ⟨s', e, h'⟩ := hset x.1 v (ho x hx)
      exact ⟨s', _, by dsimp only; rw [e]; rfl, h', rfl⟩
  | copy i j =>
    unfold irefStep IRefOp.eff assignArr
    dsimp only [IRefOp.Ok] at ho ⊢
    cases hx : r[i]? with
    | none => exact ⟨_, _, rfl, h, rfl⟩
    | some x =>
      cases r[j]? with
      | none => exact ⟨_, _, rfl, h, rfl⟩
      | some z =>
        obtain ⟨s', e, h'⟩ := hset x.1 z.2 (ho x hx)
        exact ⟨s', _, by dsimp only; rw [e]; rfl, h', rfl⟩
  | sync i =>
    unfold irefStep IRefOp.eff refArr
    dsimp only [IRefOp.Ok] at ho ⊢
    cases hx : r[i]? with
    | none => exact ⟨_, _, rfl, h, rfl⟩
    | some x => exact ⟨s, _, by dsimp only; rw [hget x.1 (ho x hx)]; rfl, h, rfl⟩
  | op o =>
    obtain ⟨s', e, h'⟩ := runB_rep .undef o h ho
    exact ⟨s', r, by unfold irefStep; dsimp only; rw [e]; rfl, h', rfl⟩

/-- **C114.** The same for references to items: they stay with their position. Positions must be in range when they are used. -/
theorem C114_array : ∀ (os : List IRefOp) (s : AB JV) (b l : List JV) (r : List (Nat × JV)), ArrB.Rep s b l → IRefsOk os ((b, l), r) →
    ∃ s' r', irefRun os (s, r) = .ok (s', r') ∧
      let t := os.foldl (fun st o => o.eff st) ((b, l), r)
      ArrB.Rep s' t.1.1 t.1.2 ∧ r' = t.2
  | [], s, b, l, r, h, _ => ⟨s, r, rfl, h, rfl⟩
  | o :: os, s, b, l, r, h, ho => by
    obtain ⟨s1, r1, e1, h1, rfl⟩ := irefStep_spec o s b l r h ho.1
    obtain ⟨s2, r2, e2, h2⟩ := C114_array os s1 _ _ _ h1 ho.2
    exact ⟨s2, r2, by rw [irefRun, e1]; exact e2, h2⟩

/-- What the array shows and what is made of it (for `C114_array`). -/
theorem C114_array_made (l : List JV) (hl : ∀ x ∈ l, isDefd x = true) (os : List IRefOp) (ho : IRefsOk os ((l, l), []))
    (hb : (os.foldl (fun st o => o.eff st) ((l, l), [])).1.1 = l) :
    ∃ s r, irefRun os (ArrB.ofBase l, []) = .ok (s, r) ∧ r = (os.foldl (fun st o => o.eff st) ((l, l), [])).2 ∧
      ArrB.commit defd .undef s = .ok ((os.foldl (fun st o => o.eff st) ((l, l), [])).1.2.filter isDefd) := by
  obtain ⟨s, r, e, h1, h2⟩ := C114_array os (ArrB.ofBase l) l l [] (ArrB.rep_ofBase _) ho
  refine ⟨s, r, e, h2, ?_⟩
  rw [hb] at h1
  rw [isDefd_eq] at *
  exact ArrB.rep_commit_def h1 defd .undef hl

example : IRefsOk [.make 0, .op (.insert 0 (.bool true)), .sync 0, .assign 0 .undef] (([JV.null], [.null]), []) := by
  simp [IRefsOk, IRefOp.Ok, IRefOp.eff, LOp.InRange, LOp.run]

/-- A reference to an item that does not exist cannot be made: `std::vector::at` throws. -/
theorem C114_missing_item (s : AB JV) (b l : List JV) (h : ArrB.Rep s b l) (p : Nat) (hp : l.length ≤ p) : refArr s p = .err :=
  ArrB.get_out h .undef hp

example : [JV.null].length ≤ 1 := by decide

end Imt.Props
