import Verif.Model.ObjCore
import Verif.Spec.Map
import Verif.Lemmas.Basic
import Mathlib.Data.List.Perm.Subperm
/-! # Lemmas about object construction and lookup -/
namespace Imt.Obj
open Imt Spec

variable {α : Type}

theorem lastVal_append (a b : Members α) (k : Bytes) :
    lastVal (a ++ b) k = (lastVal b k).or (lastVal a k) := by
  induction a with
  | nil => simp [lastVal]
  | cons m a ih =>
    obtain ⟨k', v⟩ := m
    simp only [List.cons_append, lastVal, ih]
    cases lastVal b k <;> cases lastVal a k <;> simp

theorem lastVal_none_iff (l : Members α) (k : Bytes) : lastVal l k = none ↔ k ∉ l.map (·.1) := by
  induction l with
  | nil => simp [lastVal]
  | cons m l ih =>
    obtain ⟨k', v⟩ := m
    simp only [lastVal, List.map_cons, List.mem_cons, not_or]
    rw [← ih]
    cases lastVal l k with
    | none =>
      simp only [and_true]
      by_cases h : k' = k
      · simp [h]
      · simp [h, Ne.symm h]
    | some w => simp

theorem lastVal_singleton (k' : Bytes) (v : α) (k : Bytes) : lastVal [(k', v)] k = if k' = k then some v else none := rfl

/-- Replacing a last item that has the same key does not change the map. -/
theorem lastVal_replace (out : Members α) (x m : Bytes × α) (h : x.1 = m.1) (k : Bytes) :
    lastVal (out ++ [m]) k = lastVal (out ++ [x] ++ [m]) k := by
  rw [lastVal_append, lastVal_append, lastVal_append]
  obtain ⟨kx, vx⟩ := x; obtain ⟨km, vm⟩ := m
  simp only at h; subst h
  simp only [lastVal_singleton]
  split <;> simp

theorem dropLast_concat_of_getLast {out : Members α} {x : Bytes × α} (h : out.getLast? = some x) :
    out = out.dropLast ++ [x] := by
  rw [List.getLast?_eq_some_iff] at h
  obtain ⟨ys, rfl⟩ := h
  simp

theorem cmp_le_trans {a b c : Bytes} (h1 : cmpBytes a b ≠ .gt) (h2 : cmpBytes b c ≠ .gt) : cmpBytes a c ≠ .gt := by
  cases h : cmpBytes a b with
  | gt => exact absurd h h1
  | eq => rw [(cmpBytes_eq_iff a b).1 h]; exact h2
  | lt =>
    cases h' : cmpBytes b c with
    | gt => exact absurd h' h2
    | eq => rw [← (cmpBytes_eq_iff b c).1 h', h]; simp
    | lt => rw [cmpBytes_lt_trans h h']; simp

theorem cmp_lt_of_lt_of_le {a b c : Bytes} (h1 : cmpBytes a b = .lt) (h2 : cmpBytes b c ≠ .gt) : cmpBytes a c = .lt := by
  cases h' : cmpBytes b c with
  | gt => exact absurd h' h2
  | eq => rw [← (cmpBytes_eq_iff b c).1 h', h1]
  | lt => exact cmpBytes_lt_trans h1 h'

theorem cmp_lt_of_le_of_lt {a b c : Bytes} (h1 : cmpBytes a b ≠ .gt) (h2 : cmpBytes b c = .lt) : cmpBytes a c = .lt := by
  cases h' : cmpBytes a b with
  | gt => exact absurd h' h1
  | eq => rw [(cmpBytes_eq_iff a b).1 h', h2]
  | lt => exact cmpBytes_lt_trans h' h2

/-- Non-strictly sorted. -/
def Sorted (l : Members α) : Prop := l.Pairwise (fun a b => cmpBytes a.1 b.1 ≠ .gt)

/-- State of the collecting loops: `last` is the key of the last item of `out` (if any). -/
def LastIs (last : Bytes) (out : Members α) : Prop := out = [] ∨ ∃ x, out.getLast? = some x ∧ x.1 = last

theorem collect_lastVal (last : Bytes) (out : Members α) (ord : Bool) (ms : Members α) (h : LastIs last out)
    (k : Bytes) : lastVal (collect last out ord ms).1 k = lastVal (out ++ ms) k := by
  induction ms generalizing last out ord with
  | nil => simp [collect]
  | cons m ms ih =>
    have hl : LastIs m.1 (out ++ [m]) := Or.inr ⟨m, by simp, rfl⟩
    unfold collect
    split
    · rw [ih _ _ _ hl]; simp
    split
    · next he =>
      have he := (cmpBytes_eq_iff _ _).1 he
      split
      · next hne =>
        rw [ih _ _ _ (Or.inr ⟨m, by simp, rfl⟩)]
        rcases h with h | ⟨x, hx, hk⟩
        · exact absurd h hne
        · have e := dropLast_concat_of_getLast hx
          have : out ++ m :: ms = (out.dropLast ++ [x] ++ [m]) ++ ms := by rw [← e]; simp
          rw [this, lastVal_append, lastVal_append _ ms, lastVal_replace _ x m (hk.trans he)]
      · rw [ih _ _ _ (Or.inr ⟨m, by simp, rfl⟩)]; simp
    · rw [ih _ _ _ hl]; simp

/-- All items of `out` are strictly below the last one / sorted. -/
theorem collect_sorted (last : Bytes) (out : Members α) (ord : Bool) (ms : Members α) (h : LastIs last out)
    (hs : ord = true → StrictSorted out) (hlast : out = [] → last = [])
    (hr : (collect last out ord ms).2 = true) : StrictSorted (collect last out ord ms).1 := by
  induction ms generalizing last out ord with
  | nil => exact hs (by simpa [collect] using hr)
  | cons m ms ih =>
    have hl : LastIs m.1 (out ++ [m]) := Or.inr ⟨m, by simp, rfl⟩
    unfold collect at hr ⊢
    split at hr <;> rename_i h1
    · rw [if_pos h1]
      exact ih _ _ _ hl (by simp) (by simp) hr
    · rw [if_neg h1]
      split at hr <;> rename_i h2
      · rw [if_pos h2]
        have he := (cmpBytes_eq_iff _ _).1 h2
        refine ih _ _ _ (Or.inr ⟨m, by simp, rfl⟩) ?_ (by simp) hr
        intro ho
        have hs := hs ho
        split
        · next hne =>
          rcases h with h | ⟨x, hx, hk⟩
          · exact absurd h hne
          · rw [dropLast_concat_of_getLast hx] at hs
            unfold StrictSorted at hs ⊢
            rw [List.pairwise_append] at hs ⊢
            refine ⟨hs.1, by simp, ?_⟩
            intro a ha b hb
            have := hs.2.2 a ha x (by simp)
            rw [List.mem_singleton.1 hb, ← he, ← hk]; exact this
        · next hne => simp at hne; subst hne; simp [StrictSorted]
      · rw [if_neg h2]
        have hlt : cmpBytes last m.1 = .lt := by
          cases hc : cmpBytes last m.1 with
          | lt => rfl
          | eq => exact absurd hc h2
          | gt => exact absurd hc h1
        refine ih _ _ _ hl ?_ (by simp) hr
        intro ho
        have hs := hs ho
        unfold StrictSorted at hs ⊢
        rw [List.pairwise_append]
        refine ⟨hs, by simp, ?_⟩
        intro a ha b hb
        rw [List.mem_singleton.1 hb]
        rcases h with h | ⟨x, hx, hk⟩
        · subst h; simp at ha
        · rw [dropLast_concat_of_getLast hx] at hs ha
          rcases List.mem_append.1 ha with ha | ha
          · have := (List.pairwise_append.1 hs).2.2 a ha x (by simp)
            rw [hk] at this
            exact cmpBytes_lt_trans this hlt
          · rw [List.mem_singleton.1 ha, hk]; exact hlt

theorem insertStable_mem (m : Bytes × α) (l : Members α) (x : Bytes × α) : x ∈ insertStable m l ↔ x = m ∨ x ∈ l := by
  induction l with
  | nil => simp [insertStable]
  | cons y l ih =>
    unfold insertStable
    split
    · simp only [List.mem_cons, ih]; tauto
    · simp

theorem insertStable_sorted (m : Bytes × α) (l : Members α) (h : Sorted l) : Sorted (insertStable m l) := by
  induction l with
  | nil => simp [insertStable, Sorted]
  | cons y l ih =>
    unfold Sorted at h ⊢
    rw [List.pairwise_cons] at h
    unfold insertStable
    split
    · next hg =>
      rw [List.pairwise_cons]
      refine ⟨?_, ih h.2⟩
      intro b hb
      rcases (insertStable_mem m l b).1 hb with rfl | hb
      · rw [cmpBytes_gt_iff] at hg; rw [hg]; simp
      · exact h.1 b hb
    · next hg =>
      rw [List.pairwise_cons, List.pairwise_cons]
      refine ⟨?_, h⟩
      intro b hb
      rcases List.mem_cons.1 hb with rfl | hb
      · exact hg
      · exact cmp_le_trans hg (h.1 b hb)

theorem insertStable_lastVal (m : Bytes × α) (l : Members α) (k : Bytes) :
    lastVal (insertStable m l) k = lastVal (m :: l) k := by
  induction l with
  | nil => rfl
  | cons y l ih =>
    unfold insertStable
    split
    · next hg =>
      obtain ⟨ky, vy⟩ := y; obtain ⟨km, vm⟩ := m
      have hne : ky ≠ km := by
        intro e; subst e; rw [cmpBytes_self] at hg; simp at hg
      simp only [lastVal, ih]
      cases lastVal l k with
      | some w => rfl
      | none =>
        by_cases h1 : km = k
        · subst h1; simp [hne]
        · simp only [h1, if_false]
          split <;> rfl
    · rfl

theorem stableSort_sorted (l : Members α) : Sorted (stableSort l) := by
  induction l with
  | nil => exact List.Pairwise.nil
  | cons m l ih => exact insertStable_sorted m _ ih

theorem stableSort_lastVal (l : Members α) (k : Bytes) : lastVal (stableSort l) k = lastVal l k := by
  induction l with
  | nil => rfl
  | cons m l ih =>
    obtain ⟨km, vm⟩ := m
    rw [stableSort, insertStable_lastVal]
    simp only [lastVal, ih]

theorem insertStable_perm (m : Bytes × α) (l : Members α) : (insertStable m l).Perm (m :: l) := by
  induction l with
  | nil => exact List.Perm.refl _
  | cons y l ih =>
    unfold insertStable
    split
    · exact (List.Perm.cons y ih).trans (List.Perm.swap _ _ _)
    · exact List.Perm.refl _

theorem stableSort_perm (l : Members α) : (stableSort l).Perm l := by
  induction l with
  | nil => exact List.Perm.refl _
  | cons m l ih => exact (insertStable_perm m _).trans (List.Perm.cons m ih)

theorem pushLast_lastVal (last : Bytes) (out : Members α) (m : Bytes × α) (h : LastIs last out) (k : Bytes) :
    lastVal (pushLast last out m) k = lastVal (out ++ [m]) k := by
  unfold pushLast
  split
  · next he =>
    rcases h with h | ⟨x, hx, hk⟩
    · exact absurd h he.2
    · have e := dropLast_concat_of_getLast hx
      rw [lastVal_replace _ x m (hk.trans he.1), ← e]
  · rfl

theorem pushLast_lastIs (last : Bytes) (out : Members α) (m : Bytes × α) : LastIs m.1 (pushLast last out m) := by
  unfold pushLast; split <;> exact Or.inr ⟨m, by simp, rfl⟩

theorem dedupe_lastVal (last : Bytes) (out ms : Members α) (h : LastIs last out) (k : Bytes) :
    lastVal (dedupe last out ms) k = lastVal (out ++ ms) k := by
  induction ms generalizing last out with
  | nil => simp [dedupe]
  | cons m ms ih =>
    rw [dedupe, ih _ _ (pushLast_lastIs last out m), lastVal_append, pushLast_lastVal _ _ _ h]
    rw [show out ++ m :: ms = (out ++ [m]) ++ ms by simp, lastVal_append (out ++ [m])]

theorem dedupe_sorted (last : Bytes) (out ms : Members α) (h : LastIs last out) (hs : StrictSorted out)
    (hms : Sorted ms) (hle : ∀ x, out.getLast? = some x → ∀ m ∈ ms, cmpBytes x.1 m.1 ≠ .gt) :
    StrictSorted (dedupe last out ms) := by
  induction ms generalizing last out with
  | nil => exact hs
  | cons m ms ih =>
    unfold Sorted at hms
    rw [List.pairwise_cons] at hms
    rw [dedupe]
    apply ih _ _ (pushLast_lastIs last out m)
    · unfold pushLast
      split
      · next he =>
        rcases h with h | ⟨x, hx, hk⟩
        · exact absurd h he.2
        · rw [dropLast_concat_of_getLast hx] at hs
          unfold StrictSorted at hs ⊢
          rw [List.pairwise_append] at hs ⊢
          refine ⟨hs.1, by simp, ?_⟩
          intro a ha b hb
          have := hs.2.2 a ha x (by simp)
          rw [List.mem_singleton.1 hb, ← he.1, ← hk]; exact this
      · next he =>
        unfold StrictSorted at hs ⊢
        rw [List.pairwise_append]
        refine ⟨hs, by simp, ?_⟩
        intro a ha b hb
        rw [List.mem_singleton.1 hb]
        rcases h with h | ⟨x, hx, hk⟩
        · subst h; simp at ha
        · have hne : out ≠ [] := by rintro rfl; simp at ha
          have hx' := hle x hx m (by simp)
          have hlt : cmpBytes x.1 m.1 = .lt := by
            cases hc : cmpBytes x.1 m.1 with
            | lt => rfl
            | eq =>
              rw [cmpBytes_eq_iff] at hc
              exact absurd ⟨hk.symm.trans hc, hne⟩ he
            | gt => exact absurd hc hx'
          rw [dropLast_concat_of_getLast hx] at hs ha
          rcases List.mem_append.1 ha with ha | ha
          · have := (List.pairwise_append.1 hs).2.2 a ha x (by simp)
            exact cmpBytes_lt_trans this hlt
          · rw [List.mem_singleton.1 ha]; exact hlt
    · exact hms.2
    · intro x hx b hb
      have : x = m := by
        unfold pushLast at hx
        split at hx <;> simp at hx <;> exact hx.symm
      subst this
      exact hms.1 b hb

theorem sort_sorted (l : Members α) : StrictSorted (sort l) :=
  dedupe_sorted _ _ _ (Or.inl rfl) List.Pairwise.nil (stableSort_sorted l) (by simp)

theorem sort_lastVal (l : Members α) (k : Bytes) : lastVal (sort l) k = lastVal l k := by
  rw [sort, dedupe_lastVal _ _ _ (Or.inl rfl), List.nil_append, stableSort_lastVal]

/-- The items a constructor keeps. -/
def kept (isDef : α → Bool) (skipUndef : Bool) (values : Members α) : Members α :=
  if skipUndef then values.filter (fun m => isDef m.2) else values

theorem mkObject_sorted (isDef : α → Bool) (su : Bool) (l : Members α) : StrictSorted (mkObject isDef su l) := by
  unfold mkObject
  simp only
  generalize (if su = true then l.filter (fun m => isDef m.2) else l) = vs
  split
  · next h => exact collect_sorted _ _ _ _ (Or.inl rfl) (fun _ => List.Pairwise.nil) (fun _ => rfl) h
  · exact sort_sorted _

theorem mkObject_lastVal (isDef : α → Bool) (su : Bool) (l : Members α) (k : Bytes) :
    lastVal (mkObject isDef su l) k = lastVal (kept isDef su l) k := by
  unfold mkObject kept
  simp only
  generalize (if su = true then l.filter (fun m => isDef m.2) else l) = vs
  split
  · rw [collect_lastVal _ _ _ _ (Or.inl rfl), List.nil_append]
  · rw [sort_lastVal, collect_lastVal _ _ _ _ (Or.inl rfl), List.nil_append]

/-! ### Canonical lists -/

theorem strictSorted_nodup {l : Members α} (h : StrictSorted l) : (l.map (·.1)).Nodup := by
  unfold List.Nodup
  rw [List.pairwise_map]
  exact List.Pairwise.imp (fun {a b} hab he => by rw [he, cmpBytes_self] at hab; simp at hab) h

theorem lookup_eq_lastVal {l : Members α} (h : StrictSorted l) (k : Bytes) : lookup l k = lastVal l k := by
  induction l with
  | nil => rfl
  | cons m l ih =>
    obtain ⟨k', v⟩ := m
    have hn := strictSorted_nodup h
    unfold StrictSorted at h
    rw [List.pairwise_cons] at h
    simp only [lookup, lastVal, ih h.2]
    split
    · next he =>
      subst he
      simp only [List.map_cons, List.nodup_cons] at hn
      rw [(lastVal_none_iff l k').2 hn.1]
    · cases lastVal l k <;> rfl

theorem lookup_none_iff (l : Members α) (k : Bytes) : lookup l k = none ↔ k ∉ l.map (·.1) := by
  induction l with
  | nil => simp [lookup]
  | cons m l ih =>
    obtain ⟨k', v⟩ := m
    simp only [lookup, List.map_cons, List.mem_cons, not_or]
    split
    · next h => simp [h]
    · next h => rw [ih]; exact ⟨fun h' => ⟨Ne.symm h, h'⟩, fun h' => h'.2⟩

theorem lookup_mem {l : Members α} {k : Bytes} {v : α} (h : lookup l k = some v) : (k, v) ∈ l := by
  induction l with
  | nil => simp [lookup] at h
  | cons m l ih =>
    obtain ⟨k', v'⟩ := m
    simp only [lookup] at h
    split at h
    · next e => simp at h; subst h; subst e; simp
    · exact List.mem_cons_of_mem _ (ih h)

theorem lookup_of_mem {l : Members α} (hs : StrictSorted l) {k : Bytes} {v : α} (h : (k, v) ∈ l) :
    lookup l k = some v := by
  induction l with
  | nil => simp at h
  | cons m l ih =>
    obtain ⟨k', v'⟩ := m
    have hn := strictSorted_nodup hs
    unfold StrictSorted at hs
    rw [List.pairwise_cons] at hs
    simp only [lookup]
    rcases List.mem_cons.1 h with h | h
    · simp only [Prod.mk.injEq] at h
      rw [if_pos h.1.symm, h.2]
    · simp only [List.map_cons, List.nodup_cons] at hn
      have hm : k ∈ l.map (·.1) := List.mem_map.2 ⟨_, h, rfl⟩
      rw [if_neg (fun e : k' = k => hn.1 (by rw [e]; exact hm)), ih hs.2 h]

/-- Canonical lists with the same lookups are the same list. -/
theorem eq_of_lookup_eq {a b : Members α} (ha : StrictSorted a) (hb : StrictSorted b)
    (h : ∀ k, lookup a k = lookup b k) : a = b := by
  induction a generalizing b with
  | nil =>
    cases b with
    | nil => rfl
    | cons m b =>
      obtain ⟨k, v⟩ := m
      have := h k
      simp [lookup] at this
  | cons x a ih =>
    obtain ⟨kx, vx⟩ := x
    cases b with
    | nil => have := h kx; simp [lookup] at this
    | cons y b =>
      obtain ⟨ky, vy⟩ := y
      have na := strictSorted_nodup ha; have nb := strictSorted_nodup hb
      unfold StrictSorted at ha hb
      rw [List.pairwise_cons] at ha hb
      simp only [List.map_cons, List.nodup_cons] at na nb
      have hxy : kx = ky := by
        rcases ltBytes_tri kx ky with hlt | he | hlt
        · exfalso
          have h1 := h kx
          simp only [lookup, if_true] at h1
          have hne : ¬ ky = kx := by
            rintro rfl; rw [ltBytes_irrefl] at hlt; simp at hlt
          rw [if_neg hne] at h1
          have := hb.1 _ (lookup_mem h1.symm)
          simp only [ltBytes, beq_iff_eq] at hlt
          have h2 := cmpBytes_lt_trans hlt this
          rw [cmpBytes_self] at h2; simp at h2
        · exact he
        · exfalso
          have h1 := h ky
          simp only [lookup, if_true] at h1
          have hne : ¬ kx = ky := by
            rintro rfl; rw [ltBytes_irrefl] at hlt; simp at hlt
          rw [if_neg hne] at h1
          have := ha.1 _ (lookup_mem h1)
          simp only [ltBytes, beq_iff_eq] at hlt
          have h2 := cmpBytes_lt_trans hlt this
          rw [cmpBytes_self] at h2; simp at h2
      subst hxy
      have hv : vx = vy := by have := h kx; simpa [lookup] using this
      subst hv
      congr 1
      apply ih ha.2 hb.2
      intro k
      have := h k
      simp only [lookup] at this
      split at this
      · next e =>
        subst e
        rw [(lookup_none_iff a kx).2 na.1, (lookup_none_iff b kx).2 nb.1]
      · exact this

/-! ### Binary search -/

theorem findSorted_sound (o : Members α) (name : Bytes) (l r : Nat) (it : Bytes × α)
    (h : findSorted o name l r = some it) : it ∈ o ∧ it.1 = name := by
  fun_induction findSorted o name l r with
  | case1 l r hlr m hm => simp at h
  | case2 l r hlr m it' hm hc ih => exact ih h
  | case3 l r hlr m it' hm hc ih => exact ih h
  | case4 l r hlr m it' hm hc =>
    simp at h; subst h
    exact ⟨List.mem_of_getElem? hm, ((cmpBytes_eq_iff _ _).1 hc).symm⟩
  | case5 l r hlr => simp at h

theorem sorted_getElem_lt {o : Members α} (hs : StrictSorted o) {i j : Nat} {a b : Bytes × α}
    (hi : o[i]? = some a) (hj : o[j]? = some b) (hij : i < j) : cmpBytes a.1 b.1 = .lt := by
  obtain ⟨hi', rfl⟩ := List.getElem?_eq_some_iff.1 hi
  obtain ⟨hj', rfl⟩ := List.getElem?_eq_some_iff.1 hj
  exact List.pairwise_iff_getElem.1 hs i j hi' hj' hij

theorem findSorted_complete (o : Members α) (hs : StrictSorted o) (name : Bytes) (l r : Nat) (hr : r ≤ o.length)
    (it : Bytes × α) (i : Nat) (hi : o[i]? = some it) (hn : it.1 = name) (hl : l ≤ i) (hir : i < r) :
    findSorted o name l r = some it := by
  fun_induction findSorted o name l r with
  | case1 l r hlr m hm =>
    rw [List.getElem?_eq_none_iff] at hm; omega
  | case2 l r hlr m it' hm hc ih =>
    apply ih hr
    · have : ¬ i < m := fun hlt => by
        have := sorted_getElem_lt hs hi hm hlt
        rw [hn] at this; rw [hc] at this; simp at this
      have : i ≠ m := fun e => by
        subst e; rw [hi] at hm; simp at hm; subst hm
        rw [hn, cmpBytes_self] at hc; simp at hc
      omega
    · exact hir
  | case3 l r hlr m it' hm hc ih =>
    apply ih (by omega) hl
    have : ¬ m < i := fun hlt => by
      have := sorted_getElem_lt hs hm hi hlt
      rw [hn, ← cmpBytes_gt_iff] at this; rw [hc] at this; simp at this
    have : i ≠ m := fun e => by
      subst e; rw [hi] at hm; simp at hm; subst hm
      rw [hn, cmpBytes_self] at hc; simp at hc
    omega
  | case4 l r hlr m it' hm hc =>
    have he := (cmpBytes_eq_iff _ _).1 hc
    rcases Nat.lt_trichotomy i m with h | h | h
    · have := sorted_getElem_lt hs hi hm h
      rw [hn, he, cmpBytes_self] at this; simp at this
    · subst h; rw [hi] at hm; exact hm.symm
    · have := sorted_getElem_lt hs hm hi h
      rw [hn, he, cmpBytes_self] at this; simp at this
  | case5 l r hlr => omega

theorem member_eq_lookup {o : Members α} (hs : StrictSorted o) (k : Bytes) : member o k = lookup o k := by
  unfold member
  cases h : lookup o k with
  | none =>
    rw [lookup_none_iff] at h
    cases hf : findSorted o k 0 o.length with
    | none => rfl
    | some it =>
      have := findSorted_sound _ _ _ _ _ hf
      exact absurd (List.mem_map.2 ⟨it, this.1, this.2⟩) h
  | some v =>
    have hm := lookup_mem h
    obtain ⟨i, hi, he⟩ := List.getElem_of_mem hm
    rw [findSorted_complete o hs k 0 o.length (Nat.le_refl _) (k, v) i (by rw [List.getElem?_eq_getElem hi, he]) rfl
      (Nat.zero_le _) hi]
    rfl

/-! ### Length: duplicates -/

theorem mkObject_keys (isDef : α → Bool) (su : Bool) (l : Members α) (k : Bytes) :
    k ∈ (mkObject isDef su l).map (·.1) ↔ k ∈ (kept isDef su l).map (·.1) := by
  have := mkObject_lastVal isDef su l k
  have h1 := lastVal_none_iff (mkObject isDef su l) k
  have h2 := lastVal_none_iff (kept isDef su l) k
  rw [this, h2] at h1
  exact (not_iff_not.1 h1).symm

theorem mkObject_length_le (isDef : α → Bool) (su : Bool) (l : Members α) :
    (mkObject isDef su l).length ≤ (kept isDef su l).length := by
  have h1 := strictSorted_nodup (mkObject_sorted isDef su l)
  have : (mkObject isDef su l).map (·.1) ⊆ (kept isDef su l).map (·.1) := fun k hk =>
    (mkObject_keys isDef su l k).1 hk
  have := (List.subperm_of_subset h1 this).length_le
  simpa using this

theorem mkObject_length_eq_iff (isDef : α → Bool) (su : Bool) (l : Members α) :
    (mkObject isDef su l).length = (kept isDef su l).length ↔ ((kept isDef su l).map (·.1)).Nodup := by
  have h1 := strictSorted_nodup (mkObject_sorted isDef su l)
  have hsub : (mkObject isDef su l).map (·.1) ⊆ (kept isDef su l).map (·.1) := fun k hk =>
    (mkObject_keys isDef su l k).1 hk
  constructor
  · intro h
    have hp := (List.subperm_of_subset h1 hsub).perm_of_length_le (by simp [h])
    exact hp.nodup_iff.1 h1
  · intro h
    have hsub' : (kept isDef su l).map (·.1) ⊆ (mkObject isDef su l).map (·.1) := fun k hk =>
      (mkObject_keys isDef su l k).2 hk
    have := (List.subperm_of_subset h hsub').length_le
    have h2 := mkObject_length_le isDef su l
    simp at this; omega

/-- A canonical list is rebuilt unchanged. -/
theorem mkObject_id (isDef : α → Bool) (l : Members α) (h : StrictSorted l) : mkObject isDef false l = l := by
  apply eq_of_lookup_eq (mkObject_sorted _ _ _) h
  intro k
  rw [lookup_eq_lastVal (mkObject_sorted _ _ _), lookup_eq_lastVal h, mkObject_lastVal]; rfl

end Imt.Obj
