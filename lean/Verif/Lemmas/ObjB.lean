import Verif.Model.ObjB
import Verif.Lemmas.ObjCore
import Verif.Spec.Map
/-!
# The object builder represents a finite map
-/
namespace Imt.ObjB
open Imt Imt.Obj Imt.Spec

variable {α : Type}

/-- Every key of `l` is greater than `k`. -/
def Above (k : Bytes) (l : Members α) : Prop := ∀ m ∈ l, cmpBytes k m.1 = .lt

theorem sorted_cons {m : Bytes × α} {l : Members α} : StrictSorted (m :: l) ↔ Above m.1 l ∧ StrictSorted l :=
  List.pairwise_cons

theorem Above.trans {a b : Bytes} {l : Members α} (h : cmpBytes a b = .lt) (hl : Above b l) : Above a l :=
  fun m hm => cmpBytes_lt_trans h (hl m hm)

theorem Above.lookup {k : Bytes} {l : Members α} (h : Above k l) : lookup l k = none := by
  rw [lookup_none_iff]
  intro hm
  obtain ⟨m, hx, e⟩ := List.mem_map.1 hm
  subst e
  have := h m hx
  rw [cmpBytes_self] at this; cases this

theorem Above.append {k : Bytes} {a b : Members α} (ha : Above k a) (hb : Above k b) : Above k (a ++ b) := by
  intro m hm
  rcases List.mem_append.1 hm with h | h
  · exact ha m h
  · exact hb m h

theorem lookup_cons (m : Bytes × α) (l : Members α) (k : Bytes) :
    lookup (m :: l) k = if m.1 = k then some m.2 else lookup l k := rfl

theorem cmp_gt_swap {a b : Bytes} (h : cmpBytes a b = .gt) : cmpBytes b a = .lt := by
  rw [cmpBytes_swap, h]; rfl

/-! ### applyDiffImpl -/

/-- Value of a key after applying a diff. -/
def comb (isDef : α → Bool) (f : α → α → α) (cd : Bool) (x y : Option α) : Option α :=
  match y with
  | none => x
  | some v => if isDef v then some (match x with | none => v | some o => f o v) else if cd then some v else none

variable (isDef : α → Bool) (f : α → α → α) (cd : Bool)

theorem onlyDiff_above {k : Bytes} {d : Bytes × α} (h : cmpBytes k d.1 = .lt) : Above k (onlyDiff isDef cd d) := by
  unfold onlyDiff
  split
  · intro m hm; rw [List.mem_singleton.1 hm]; exact h
  · split
    · intro m hm; rw [List.mem_singleton.1 hm]; exact h
    · intro m hm; simp at hm

theorem flat_above {k : Bytes} {ds : Members α} (h : Above k ds) : Above k (ds.flatMap (onlyDiff isDef cd)) := by
  intro m hm
  obtain ⟨d, hd, hm⟩ := List.mem_flatMap.1 hm
  exact onlyDiff_above isDef cd (h d hd) m hm

theorem bothDiff_above {k : Bytes} {b d : Bytes × α} (hb : cmpBytes k b.1 = .lt) (h : cmpBytes k d.1 = .lt) :
    Above k (bothDiff isDef f cd b d) := by
  unfold bothDiff
  split
  · intro m hm; rw [List.mem_singleton.1 hm]; exact hb
  · split
    · intro m hm; rw [List.mem_singleton.1 hm]; exact h
    · intro m hm; simp at hm

theorem sorted_single_append {k : Bytes} {a l : Members α} (ha : a.length ≤ 1) (hk : ∀ m ∈ a, m.1 = k) (hl : StrictSorted l)
    (hab : Above k l) : StrictSorted (a ++ l) := by
  match a, ha with
  | [], _ => exact hl
  | [m], _ =>
    rw [List.singleton_append, sorted_cons]
    exact ⟨by rw [hk m (by simp)]; exact hab, hl⟩

theorem onlyDiff_len (d : Bytes × α) : (onlyDiff isDef cd d).length ≤ 1 ∧ ∀ m ∈ onlyDiff isDef cd d, m.1 = d.1 := by
  unfold onlyDiff
  split
  · simp
  · split <;> simp

theorem bothDiff_len (b d : Bytes × α) (h : b.1 = d.1) :
    (bothDiff isDef f cd b d).length ≤ 1 ∧ ∀ m ∈ bothDiff isDef f cd b d, m.1 = b.1 := by
  unfold bothDiff
  split
  · simp
  · split <;> simp [h]

theorem lookup_append (a b : Members α) (k : Bytes) : lookup (a ++ b) k = (lookup a k).or (lookup b k) := by
  induction a with
  | nil => rfl
  | cons m a ih =>
    rw [List.cons_append, lookup_cons, lookup_cons, ih]
    split <;> simp

theorem flat_sorted : ∀ (ds : Members α), StrictSorted ds → StrictSorted (ds.flatMap (onlyDiff isDef cd))
  | [], _ => List.Pairwise.nil
  | d :: ds, h => by
    rw [sorted_cons] at h
    rw [List.flatMap_cons]
    exact sorted_single_append (onlyDiff_len isDef cd d).1 (onlyDiff_len isDef cd d).2 (flat_sorted ds h.2)
      (flat_above isDef cd h.1)

theorem onlyDiff_lookup (d : Bytes × α) (k : Bytes) :
    lookup (onlyDiff isDef cd d) k = if d.1 = k then comb isDef f cd none (some d.2) else none := by
  unfold onlyDiff comb
  by_cases hd : isDef d.2 = true
  · simp [hd, lookup_cons, lookup]
  · by_cases hc : cd = true
    · simp [hd, hc, lookup_cons, lookup]
    · simp [hd, hc, lookup]

theorem bothDiff_lookup (b d : Bytes × α) (h : b.1 = d.1) (k : Bytes) :
    lookup (bothDiff isDef f cd b d) k = if b.1 = k then comb isDef f cd (some b.2) (some d.2) else none := by
  unfold bothDiff comb
  by_cases hd : isDef d.2 = true
  · simp [hd, lookup_cons, lookup]
  · by_cases hc : cd = true
    · simp [hd, hc, lookup_cons, lookup, h]
    · simp [hd, hc, lookup]

theorem flat_lookup : ∀ (ds : Members α), StrictSorted ds → ∀ k,
    lookup (ds.flatMap (onlyDiff isDef cd)) k = comb isDef f cd none (lookup ds k)
  | [], _, k => rfl
  | d :: ds, h, k => by
    rw [sorted_cons] at h
    rw [List.flatMap_cons, lookup_append, onlyDiff_lookup isDef f cd, flat_lookup ds h.2, lookup_cons]
    split
    · next e =>
      subst e
      rw [h.1.lookup]
      simp [comb]
    · simp

/-- The merge of two sorted lists: bounds, order and content. -/
theorem applyDiffImpl_spec : ∀ (bs ds : Members α), StrictSorted bs → StrictSorted ds →
    (∀ k, Above k bs → Above k ds → Above k (applyDiffImpl isDef f cd bs ds)) ∧
    StrictSorted (applyDiffImpl isDef f cd bs ds) ∧
    ∀ k, lookup (applyDiffImpl isDef f cd bs ds) k = comb isDef f cd (lookup bs k) (lookup ds k)
  | [], ds, _, hd => ⟨fun k _ h => flat_above isDef cd h, flat_sorted isDef cd ds hd, flat_lookup isDef f cd ds hd⟩
  | b :: bs, ds, hb, hd => by
    have hb' := sorted_cons.1 hb
    have ih := fun ds hd => applyDiffImpl_spec bs ds hb'.2 hd
    rw [applyDiffImpl]
    induction ds with
    | nil => exact ⟨fun k h _ => h, hb, fun k => rfl⟩
    | cons d ds ihd =>
      have hd' := sorted_cons.1 hd
      have ihd := ihd hd'.2
      rw [mergeStep]
      cases hc : cmpBytes b.1 d.1 with
      | lt =>
        obtain ⟨i1, i2, i3⟩ := ih (d :: ds) hd
        have hab : Above b.1 (d :: ds) := by
          intro m hm
          rcases List.mem_cons.1 hm with rfl | hm
          · exact hc
          · exact cmpBytes_lt_trans hc (hd'.1 m hm)
        refine ⟨?_, ?_, ?_⟩
        · intro k h1 h2 m hm
          rcases List.mem_cons.1 hm with rfl | hm
          · exact h1 _ (by simp)
          · exact i1 k (fun m hm => h1 m (List.mem_cons_of_mem _ hm)) h2 m hm
        · rw [sorted_cons]; exact ⟨i1 _ hb'.1 hab, i2⟩
        · intro k
          dsimp only
          rw [lookup_cons, lookup_cons b bs, i3]
          split
          · next e => subst e; rw [hab.lookup]; rfl
          · rfl
      | gt =>
        have hdb := cmp_gt_swap hc
        obtain ⟨i1, i2, i3⟩ := ihd
        have hab : Above d.1 (b :: bs) := by
          intro m hm
          rcases List.mem_cons.1 hm with rfl | hm
          · exact hdb
          · exact cmpBytes_lt_trans hdb (hb'.1 m hm)
        refine ⟨?_, ?_, ?_⟩
        · intro k h1 h2
          exact (onlyDiff_above isDef cd (h2 d (by simp))).append (i1 k h1 (fun m hm => h2 m (List.mem_cons_of_mem _ hm)))
        · exact sorted_single_append (onlyDiff_len isDef cd d).1 (onlyDiff_len isDef cd d).2 i2 (i1 _ hab hd'.1)
        · intro k
          dsimp only
          rw [lookup_append, i3, onlyDiff_lookup isDef f cd, lookup_cons d ds]
          split
          · next e =>
            subst e
            rw [hab.lookup, hd'.1.lookup]
            simp [comb]
          · simp
      | eq =>
        have he : b.1 = d.1 := (cmpBytes_eq_iff _ _).1 hc
        obtain ⟨i1, i2, i3⟩ := ih ds hd'.2
        refine ⟨?_, ?_, ?_⟩
        · intro k h1 h2
          exact (bothDiff_above isDef f cd (h1 b (by simp)) (h2 d (by simp))).append
            (i1 k (fun m hm => h1 m (List.mem_cons_of_mem _ hm)) (fun m hm => h2 m (List.mem_cons_of_mem _ hm)))
        · exact sorted_single_append (bothDiff_len isDef f cd b d he).1 (bothDiff_len isDef f cd b d he).2 i2
            (i1 _ hb'.1 (he ▸ hd'.1))
        · intro k
          dsimp only
          rw [lookup_append, i3, bothDiff_lookup isDef f cd b d he, lookup_cons d ds, lookup_cons b bs, ← he]
          split
          · next e =>
            subst e
            rw [hb'.1.lookup, he, hd'.1.lookup]
            simp [comb]
          · simp

theorem applyDiffImpl_sorted {bs ds : Members α} (hb : StrictSorted bs) (hd : StrictSorted ds) :
    StrictSorted (applyDiffImpl isDef f cd bs ds) := (applyDiffImpl_spec isDef f cd bs ds hb hd).2.1

theorem applyDiffImpl_lookup {bs ds : Members α} (hb : StrictSorted bs) (hd : StrictSorted ds) (k : Bytes) :
    lookup (applyDiffImpl isDef f cd bs ds) k = comb isDef f cd (lookup bs k) (lookup ds k) :=
  (applyDiffImpl_spec isDef f cd bs ds hb hd).2.2 k

/-! ### The builder -/

theorem findLast_eq (l : Members α) (k : Bytes) : findLast l k = lastVal l k := by
  unfold findLast
  induction l with
  | nil => rfl
  | cons m l ih =>
    obtain ⟨k', v⟩ := m
    rw [List.reverse_cons, List.find?_append, lastVal, ← ih]
    cases h : l.reverse.find? (fun m => m.1 == k) with
    | some x => simp
    | none =>
      by_cases hk : k' = k <;> simp [hk]

/-- Recorded value of a key, if any. -/
def recorded (s : OB α) (k : Bytes) : Option α :=
  (lastVal ((s.unordered.map (·.items)).getD []) k).or (lookup (s.ordered.getD []) k)

/-- The value the builder shows for a key. -/
def cur (undef : α) (s : OB α) (k : Bytes) : α := (recorded s k).getD ((lookup s.base k).getD undef)

/-- Invariant of the builder. -/
structure Inv (s : OB α) : Prop where
  base : StrictSorted s.base
  ordered : ∀ o, s.ordered = some o → StrictSorted o ∧ o ≠ []
  un : s.unordered = none → s.ordered = none
  cap : ∀ u, s.unordered = some u → u.items.length ≤ u.cap ∧ 0 < u.cap ∧ (8 < u.cap → s.ordered ≠ none)

theorem inv_ofBase {b : Members α} (d : Bool) (h : StrictSorted b) : Inv (ofBase b d) :=
  ⟨h, by simp [ofBase], by simp [ofBase], by simp [ofBase]⟩

theorem inv_new : Inv (new : OB α) := inv_ofBase false List.Pairwise.nil

theorem sort_ne_nil {l : Members α} (h : l ≠ []) : Obj.sort l ≠ [] := by
  intro e
  cases l with
  | nil => exact h rfl
  | cons m l =>
    have h1 : lastVal (m :: l) m.1 ≠ none := by
      rw [Ne, lastVal_none_iff]; simp
    rw [← sort_lastVal, e] at h1
    exact h1 rfl

theorem ne_nil_of_lookup {l : Members α} {k : Bytes} (h : lookup l k ≠ none) : l ≠ [] := by
  intro e; rw [e] at h; exact h rfl

theorem optimize_spec {s : OB α} (h : Inv s) : Inv (optimize isDef s) ∧ (∀ k, recorded (optimize isDef s) k = recorded s k) ∧
    (optimize isDef s).base = s.base ∧ (optimize isDef s).baseDiff = s.baseDiff ∧ (optimize isDef s).snap = s.snap ∧
    (∀ u, (optimize isDef s).unordered = some u → u.items = []) := by
  unfold optimize
  cases hu : s.unordered with
  | none => exact ⟨h, fun k => rfl, rfl, rfl, rfl, by simp [hu]⟩
  | some u =>
    obtain ⟨hc1, hc2, hc3⟩ := h.cap u hu
    dsimp only
    split
    · next h0 =>
      refine ⟨h, fun k => rfl, rfl, rfl, rfl, ?_⟩
      intro u' hu'
      rw [hu] at hu'; cases hu'
      exact List.length_eq_zero_iff.1 h0
    · next h0 =>
      have hne : u.items ≠ [] := fun e => h0 (by rw [e]; rfl)
      cases ho : s.ordered with
      | none =>
        refine ⟨⟨h.base, ?_, by simp, ?_⟩, ?_, rfl, rfl, rfl, ?_⟩
        · intro o e; cases e; exact ⟨sort_sorted _, sort_ne_nil hne⟩
        · intro u' e; cases e; simp [hc2]
        · intro k
          simp only [recorded, hu, ho, Option.map_some, Option.getD_some, Option.getD_none]
          rw [lookup_eq_lastVal (sort_sorted _), sort_lastVal]
          simp [lastVal, lookup]
        · intro u' e; cases e; rfl
      | some o =>
        obtain ⟨ho1, ho2⟩ := h.ordered o ho
        have hlk := applyDiffImpl_lookup isDef defaultMerge true ho1 (sort_sorted u.items)
        have key : ∀ k, lookup (applyDiffImpl isDef defaultMerge true o (Obj.sort u.items)) k =
            (lastVal u.items k).or (lookup o k) := by
          intro k
          rw [hlk, lookup_eq_lastVal (sort_sorted u.items), sort_lastVal]
          cases lastVal u.items k with
          | none => simp [comb]
          | some v =>
            cases lookup o k <;> simp [comb, defaultMerge]
        refine ⟨⟨h.base, ?_, by simp, ?_⟩, ?_, rfl, rfl, rfl, ?_⟩
        · intro o' e; cases e
          refine ⟨applyDiffImpl_sorted isDef _ _ ho1 (sort_sorted _), ?_⟩
          cases o with
          | nil => exact absurd rfl ho2
          | cons m o =>
            apply ne_nil_of_lookup (k := m.1)
            rw [key]
            simp [lookup_cons]
        · intro u' e; cases e; simp [hc2]
        · intro k
          simp only [recorded, hu, ho, Option.map_some, Option.getD_some, key]
          simp [lastVal]
        · intro u' e; cases e; rfl

theorem optimize_cur {s : OB α} (h : Inv s) (u : α) (k : Bytes) : cur u (optimize isDef s) k = cur u s k := by
  obtain ⟨_, h1, h2, _⟩ := optimize_spec isDef h
  unfold cur; rw [h1, h2]

theorem optimize_some {s : OB α} (u : Cont α) (hu : s.unordered = some u) (hne : u.items ≠ []) :
    (optimize isDef s).ordered ≠ none := by
  unfold optimize
  rw [hu]
  dsimp only
  rw [if_neg (fun e => hne (List.length_eq_zero_iff.1 e))]
  cases s.ordered <;> simp

theorem optimize_none {s : OB α} (h : s.ordered = none) (u : Cont α) (hu : s.unordered = some u) (hne : u.items = []) :
    (optimize isDef s).ordered = none := by
  unfold optimize; rw [hu]; simp [hne, h]

theorem lastVal_push (l : Members α) (m : Bytes × α) (k : Bytes) :
    lastVal (l ++ [m]) k = if m.1 = k then some m.2 else lastVal l k := by
  rw [lastVal_append, lastVal_singleton]
  split <;> simp

theorem setInternal_spec {s : OB α} (h : Inv s) (m : Bytes × α) : Inv (setInternal isDef s m) ∧
    (∀ k, recorded (setInternal isDef s m) k = if m.1 = k then some m.2 else recorded s k) ∧
    (setInternal isDef s m).base = s.base ∧ (setInternal isDef s m).baseDiff = s.baseDiff ∧
    (setInternal isDef s m).snap = none := by
  unfold setInternal
  dsimp only
  -- the unordered container that receives the member
  have hU : ∃ u : Cont α, s.unordered.getD { cap := 8, items := [] } = u ∧ u.items.length ≤ u.cap ∧ 0 < u.cap ∧
      (8 < u.cap → s.ordered ≠ none) ∧ (∀ k, recorded s k = (lastVal u.items k).or (lookup (s.ordered.getD []) k)) := by
    cases hu : s.unordered with
    | none => exact ⟨_, rfl, by simp, by simp, by simp, by intro k; simp [recorded, hu, lastVal]⟩
    | some u => exact ⟨u, rfl, (h.cap u hu).1, (h.cap u hu).2.1, (h.cap u hu).2.2, by intro k; simp [recorded, hu]⟩
  obtain ⟨u, hu, hc1, hc2, hc3, hrec⟩ := hU
  rw [hu]
  by_cases hlt : u.items.length < u.cap
  · rw [Cont.push, if_pos hlt]
    dsimp only
    refine ⟨⟨h.base, h.ordered, by simp, ?_⟩, ?_, rfl, rfl, rfl⟩
    · intro u' e; cases e
      exact ⟨by simp; omega, hc2, hc3⟩
    · intro k
      rw [hrec k]
      simp only [recorded, Option.map_some, Option.getD_some, lastVal_push]
      split <;> simp
  · rw [Cont.push, if_neg hlt]
    dsimp only
    have hlen : u.items.length = u.cap := by omega
    have hne : u.items ≠ [] := by intro e; rw [e] at hlen; simp at hlen; omega
    have hinv : Inv { s with snap := none, unordered := some u } :=
      ⟨h.base, h.ordered, by simp, by intro u' e; cases e; exact ⟨hc1, hc2, hc3⟩⟩
    obtain ⟨o1, o2, o3, o4, o5, o6⟩ := optimize_spec isDef hinv
    have hsome := optimize_some isDef (s := { s with snap := none, unordered := some u }) u rfl hne
    have hpos : 0 < u.items.length * 2 := by omega
    rw [Cont.push, if_pos (by simpa using hpos)]
    simp only [Option.getD_some, List.nil_append]
    refine ⟨⟨o1.base, o1.ordered, by simp, ?_⟩, ?_, o3, o4, o5⟩
    · intro u' e; cases e
      exact ⟨by simp; omega, by simpa using hpos, fun _ => hsome⟩
    · intro k
      have hk := o2 k
      rw [show recorded { s with snap := none, unordered := some u } k = recorded s k by
        rw [hrec k]; simp [recorded]] at hk
      rw [← hk]
      simp only [recorded, Option.map_some, Option.getD_some]
      rw [lastVal_singleton]
      have hnil : lastVal (((optimize isDef { s with snap := none, unordered := some u }).unordered.map (·.items)).getD []) k = none := by
        cases hx : (optimize isDef { s with snap := none, unordered := some u }).unordered with
        | none => rfl
        | some u' => simp [o6 u' hx, lastVal]
      rw [hnil]
      split <;> simp

theorem set_cur {s : OB α} (h : Inv s) (u : α) (k : Bytes) (v : α) (k' : Bytes) :
    cur u (set isDef s k v) k' = if k = k' then v else cur u s k' := by
  obtain ⟨_, h1, h2, _⟩ := setInternal_spec isDef h (k, v)
  unfold cur set
  rw [h1, h2]
  dsimp only
  split <;> simp

theorem foldl_set_spec (ms : Members α) : ∀ {s : OB α}, Inv s →
    Inv (ms.foldl (fun s m => setInternal isDef s m) s) ∧
    (∀ k, recorded (ms.foldl (fun s m => setInternal isDef s m) s) k = (lastVal ms k).or (recorded s k)) ∧
    (ms.foldl (fun s m => setInternal isDef s m) s).base = s.base ∧
    (ms.foldl (fun s m => setInternal isDef s m) s).baseDiff = s.baseDiff := by
  induction ms with
  | nil => exact fun h => ⟨h, fun k => rfl, rfl, rfl⟩
  | cons m ms ih =>
    intro s h
    obtain ⟨a1, a2, a3, a4, _⟩ := setInternal_spec isDef h m
    obtain ⟨b1, b2, b3, b4⟩ := ih a1
    refine ⟨b1, ?_, b3.trans a3, b4.trans a4⟩
    intro k
    rw [List.foldl_cons, b2, a2, lastVal]
    cases lastVal ms k with
    | some v => rfl
    | none => simp only [Option.none_or]; split <;> simp

/-- Reading a key never runs into undefined behaviour, gives the current value and leaves the content as it was. -/
theorem get_spec {s : OB α} (h : Inv s) (undef : α) (k : Bytes) : ∃ s', get isDef undef s k = .ok (cur undef s k, s') ∧
    Inv s' ∧ (∀ k, recorded s' k = recorded s k) ∧ s'.base = s.base ∧ s'.baseDiff = s.baseDiff ∧ s'.snap = s.snap := by
  unfold get
  cases hu : s.unordered with
  | none =>
    refine ⟨s, ?_, h, fun _ => rfl, rfl, rfl, rfl⟩
    have ho := h.un hu
    dsimp only
    rw [member_eq_lookup h.base]
    simp [cur, recorded, hu, ho, lastVal, lookup]
  | some u =>
    obtain ⟨hc1, hc2, hc3⟩ := h.cap u hu
    dsimp only
    -- the state and the part of the unordered container that is searched
    have hR : ∃ s' l, getPrep isDef s u = .ok (s', l) ∧ Inv s' ∧ (∀ k, recorded s' k = recorded s k) ∧ s'.base = s.base ∧
        s'.baseDiff = s.baseDiff ∧ s'.snap = s.snap ∧
        ∀ k, recorded s k = (lastVal l k).or (lookup (s'.ordered.getD []) k) := by
      have stay : ∀ k, recorded s k = (lastVal u.items k).or (lookup (s.ordered.getD []) k) := by
        intro k; simp [recorded, hu]
      unfold getPrep
      split
      · cases ho : s.ordered with
        | none => exact absurd ho (hc3 (by omega))
        | some o =>
          dsimp only
          split
          · obtain ⟨a1, a2, a3, a4, a5, a6⟩ := optimize_spec isDef h
            refine ⟨_, _, rfl, a1, a2, a3, a4, a5, ?_⟩
            intro k
            rw [← a2 k]
            cases hx : (optimize isDef s).unordered with
            | none => simp [recorded, hx]
            | some u' => simp [recorded, hx, a6 u' hx]
          · exact ⟨_, _, rfl, h, fun _ => rfl, rfl, rfl, rfl, stay⟩
      · exact ⟨_, _, rfl, h, fun _ => rfl, rfl, rfl, rfl, stay⟩
    obtain ⟨s', l, e, a1, a2, a3, a4, a5, a6⟩ := hR
    rw [e]
    refine ⟨s', ?_, a1, a2, a3, a4, a5⟩
    simp only [Res.bind_ok]
    rw [findLast_eq]
    have hk := a6 k
    unfold cur
    rw [hk]
    cases lastVal l k with
    | some v => rfl
    | none =>
      simp only [Option.none_or]
      cases ho : s'.ordered with
      | none =>
        dsimp only
        rw [member_eq_lookup a1.base, a3]
        simp [lookup]
      | some o =>
        dsimp only
        have hm := member_eq_lookup (a1.ordered o ho).1 k
        unfold Obj.member at hm
        rw [hm]
        simp only [Option.getD_some]
        cases lookup o k with
        | some v => rfl
        | none => dsimp only; rw [member_eq_lookup a1.base, a3]; rfl

/-- Commit gives a canonical object with the current values; the content stays as it was. -/
theorem commit_spec {s : OB α} (h : Inv s) : Inv (commit isDef s).2 ∧ (∀ k, recorded (commit isDef s).2 k = recorded s k) ∧
    (commit isDef s).2.base = s.base ∧ (commit isDef s).2.baseDiff = s.baseDiff ∧ (commit isDef s).2.snap = s.snap ∧
    StrictSorted (commit isDef s).1 ∧
    ∀ k, lookup (commit isDef s).1 k = comb isDef defaultMerge s.baseDiff (lookup s.base k) (recorded s k) := by
  obtain ⟨a1, a2, a3, a4, a5, a6⟩ := optimize_spec isDef h
  unfold commit
  dsimp only
  have hnil : ∀ k, lastVal (((optimize isDef s).unordered.map (·.items)).getD []) k = none := by
    intro k
    cases hx : (optimize isDef s).unordered with
    | none => rfl
    | some u' => simp [a6 u' hx, lastVal]
  cases ho : (optimize isDef s).ordered with
  | none =>
    refine ⟨a1, a2, a3, a4, a5, a1.base, ?_⟩
    intro k
    dsimp only
    rw [← a2 k, a3]
    simp [recorded, hnil, ho, lookup, comb]
  | some o =>
    refine ⟨a1, a2, a3, a4, a5, ?_, ?_⟩
    · exact applyDiffImpl_sorted isDef _ _ a1.base (a1.ordered o ho).1
    · intro k
      dsimp only [applyDiff]
      rw [applyDiffImpl_lookup isDef _ _ a1.base (a1.ordered o ho).1, ← a2 k, a3, a4]
      simp [recorded, hnil, ho]

theorem commit_congr {s s' : OB α} (h : Inv s) (h' : Inv s') (hr : ∀ k, recorded s' k = recorded s k)
    (hb : s'.base = s.base) (hd : s'.baseDiff = s.baseDiff) : (commit isDef s').1 = (commit isDef s).1 := by
  apply eq_of_lookup_eq (commit_spec isDef h').2.2.2.2.2.1 (commit_spec isDef h).2.2.2.2.2.1
  intro k
  rw [(commit_spec isDef h').2.2.2.2.2.2, (commit_spec isDef h).2.2.2.2.2.2, hr, hb, hd]

/-- The recorded changes as a diff object. -/
theorem commitAsDiff_spec {s : OB α} (h : Inv s) : Inv (commitAsDiff isDef s).2 ∧
    StrictSorted (commitAsDiff isDef s).1 ∧ ∀ k, lookup (commitAsDiff isDef s).1 k = recorded s k := by
  obtain ⟨a1, a2, a3, a4, a5, a6⟩ := optimize_spec isDef h
  have hnil : ∀ k, lastVal (((optimize isDef s).unordered.map (·.items)).getD []) k = none := by
    intro k
    cases hx : (optimize isDef s).unordered with
    | none => rfl
    | some u' => simp [a6 u' hx, lastVal]
  refine ⟨a1, ?_, ?_⟩
  · unfold commitAsDiff; dsimp only
    cases ho : (optimize isDef s).ordered with
    | none => exact List.Pairwise.nil
    | some o => exact (a1.ordered o ho).1
  · intro k
    rw [← a2 k]
    simp [commitAsDiff, recorded, hnil]

/-! ### createDiff and setItems -/

/-- Recorded value of a key in a diff. -/
def dcomb (neq : α → α → Bool) (undef : α) (x y : Option α) : Option α :=
  match x, y with
  | none, y => y
  | some _, none => some undef
  | some o, some v => if neq v o then some v else none

theorem map_undef_above {k : Bytes} {l : Members α} (undef : α) (h : Above k l) :
    Above k (l.map (fun m => (m.1, undef))) := by
  intro m hm
  obtain ⟨x, hx, rfl⟩ := List.mem_map.1 hm
  exact h x hx

theorem map_undef_sorted (undef : α) : ∀ (l : Members α), StrictSorted l → StrictSorted (l.map (fun m => (m.1, undef)))
  | [], _ => List.Pairwise.nil
  | m :: l, h => by
    rw [sorted_cons] at h
    rw [List.map_cons, sorted_cons]
    exact ⟨map_undef_above undef h.1, map_undef_sorted undef l h.2⟩

theorem map_undef_lookup (undef : α) (l : Members α) (k : Bytes) :
    lookup (l.map (fun m => (m.1, undef))) k = (lookup l k).map (fun _ => undef) := by
  induction l with
  | nil => rfl
  | cons m l ih =>
    rw [List.map_cons, lookup_cons, lookup_cons, ih]
    split <;> simp

theorem common0_len (neq : α → α → Bool) (d b : Bytes × α) (h : b.1 = d.1) :
    (common0 neq d b).length ≤ 1 ∧ ∀ m ∈ common0 neq d b, m.1 = b.1 := by
  unfold common0
  split
  · simp [h]
  · simp

theorem common0_lookup (neq : α → α → Bool) (undef : α) (d b : Bytes × α) (h : b.1 = d.1) (k : Bytes) :
    lookup (common0 neq d b) k = if b.1 = k then dcomb neq undef (some b.2) (some d.2) else none := by
  unfold common0 dcomb
  by_cases hn : neq d.2 b.2 = true
  · simp [hn, lookup_cons, lookup, h]
  · simp [hn, lookup]

theorem diffItems_spec (neq : α → α → Bool) (undef : α) : ∀ (bs ds : Members α), StrictSorted bs → StrictSorted ds →
    (∀ k, Above k bs → Above k ds → Above k (diffItems (common0 neq) undef bs ds)) ∧
    StrictSorted (diffItems (common0 neq) undef bs ds) ∧
    ∀ k, lookup (diffItems (common0 neq) undef bs ds) k = dcomb neq undef (lookup bs k) (lookup ds k)
  | [], ds, _, hd => ⟨fun k _ h => h, hd, fun k => rfl⟩
  | b :: bs, ds, hb, hd => by
    have hb' := sorted_cons.1 hb
    have ih := fun ds hd => diffItems_spec neq undef bs ds hb'.2 hd
    rw [diffItems]
    induction ds with
    | nil =>
      refine ⟨fun k h _ => map_undef_above undef h, map_undef_sorted undef _ hb, fun k => ?_⟩
      rw [diffStep, map_undef_lookup]
      cases lookup (b :: bs) k <;> rfl
    | cons d ds ihd =>
      have hd' := sorted_cons.1 hd
      have ihd := ihd hd'.2
      rw [diffStep]
      cases hc : cmpBytes b.1 d.1 with
      | lt =>
        obtain ⟨i1, i2, i3⟩ := ih (d :: ds) hd
        have hab : Above b.1 (d :: ds) := by
          intro m hm
          rcases List.mem_cons.1 hm with rfl | hm
          · exact hc
          · exact cmpBytes_lt_trans hc (hd'.1 m hm)
        refine ⟨?_, ?_, ?_⟩
        · intro k h1 h2 m hm
          rcases List.mem_cons.1 hm with rfl | hm
          · exact h1 b (by simp)
          · exact i1 k (fun m hm => h1 m (List.mem_cons_of_mem _ hm)) h2 m hm
        · rw [sorted_cons]; exact ⟨i1 _ hb'.1 hab, i2⟩
        · intro k
          dsimp only
          rw [lookup_cons, lookup_cons b bs, i3]
          dsimp only
          split
          · next e => subst e; rw [hab.lookup]; rfl
          · rfl
      | gt =>
        have hdb := cmp_gt_swap hc
        obtain ⟨i1, i2, i3⟩ := ihd
        have hab : Above d.1 (b :: bs) := by
          intro m hm
          rcases List.mem_cons.1 hm with rfl | hm
          · exact hdb
          · exact cmpBytes_lt_trans hdb (hb'.1 m hm)
        refine ⟨?_, ?_, ?_⟩
        · intro k h1 h2 m hm
          rcases List.mem_cons.1 hm with rfl | hm
          · exact h2 _ (by simp)
          · exact i1 k h1 (fun m hm => h2 m (List.mem_cons_of_mem _ hm)) m hm
        · rw [sorted_cons]; exact ⟨i1 _ hab hd'.1, i2⟩
        · intro k
          dsimp only
          rw [lookup_cons, i3, lookup_cons d ds]
          split
          · next e => subst e; rw [hab.lookup]; rfl
          · rfl
      | eq =>
        have he : b.1 = d.1 := (cmpBytes_eq_iff _ _).1 hc
        obtain ⟨i1, i2, i3⟩ := ih ds hd'.2
        have hl := common0_len neq d b he
        refine ⟨?_, ?_, ?_⟩
        · intro k h1 h2
          refine Above.append ?_ (i1 k (fun m hm => h1 m (List.mem_cons_of_mem _ hm)) (fun m hm => h2 m (List.mem_cons_of_mem _ hm)))
          intro m hm
          rw [hl.2 m hm]
          exact h1 b (by simp)
        · exact sorted_single_append hl.1 hl.2 i2 (i1 _ hb'.1 (he ▸ hd'.1))
        · intro k
          dsimp only
          rw [lookup_append, i3, common0_lookup neq undef d b he, lookup_cons d ds, lookup_cons b bs, ← he]
          split
          · next e =>
            subst e
            rw [hb'.1.lookup, he, hd'.1.lookup]
            simp [dcomb]
          · simp

theorem record_lookup (l : Members α) (k : Bytes) :
    lookup (commitAsDiff isDef (record isDef new l)).1 k = lastVal l k := by
  obtain ⟨a1, a2, _⟩ := foldl_set_spec isDef l (inv_new (α := α))
  obtain ⟨_, _, c3⟩ := commitAsDiff_spec isDef a1
  unfold record
  rw [c3, a2]
  simp [new, recorded, lastVal, lookup]

theorem record_sorted (l : Members α) : StrictSorted (commitAsDiff isDef (record isDef new l)).1 := by
  obtain ⟨a1, _⟩ := foldl_set_spec isDef l (inv_new (α := α))
  exact (commitAsDiff_spec isDef a1).2.1

theorem diffItems_congr {c1 c2 : Bytes × α → Bytes × α → Members α} (undef : α) : ∀ (bs ds : Members α),
    (∀ b ∈ bs, ∀ d ∈ ds, b.1 = d.1 → c1 d b = c2 d b) → diffItems c1 undef bs ds = diffItems c2 undef bs ds
  | [], ds, _ => rfl
  | b :: bs, ds, h => by
    rw [diffItems, diffItems]
    have ih := fun ds h => diffItems_congr (c1 := c1) (c2 := c2) undef bs ds h
    induction ds with
    | nil => rfl
    | cons d ds ihd =>
      have e1 := ih (d :: ds) (fun b hb => h b (List.mem_cons_of_mem _ hb))
      have e2 := ih ds (fun b hb d hd => h b (List.mem_cons_of_mem _ hb) d (List.mem_cons_of_mem _ hd))
      have e3 := ihd (fun b hb d hd => h b hb d (List.mem_cons_of_mem _ hd))
      rw [diffStep, diffStep, e1, e2, e3]
      cases hc : cmpBytes b.1 d.1 with
      | lt => rfl
      | gt => rfl
      | eq => dsimp only; rw [h b (by simp) d (by simp) ((cmpBytes_eq_iff _ _).1 hc)]

/-- What is recorded for a common key of sorted lists does appear. -/
theorem diffItems_mem (c : Bytes × α → Bytes × α → Members α) (undef : α) : ∀ (bs ds : Members α), StrictSorted bs →
    StrictSorted ds → ∀ b ∈ bs, ∀ d ∈ ds, b.1 = d.1 → ∀ m ∈ c d b, m ∈ diffItems c undef bs ds
  | [], ds, _, _, b, hb => by simp at hb
  | b :: bs, ds, hb, hd, x, hx => by
    have hb' := sorted_cons.1 hb
    have ih := fun ds hd => diffItems_mem c undef bs ds hb'.2 hd
    rw [diffItems]
    induction ds with
    | nil => intro d hd; simp at hd
    | cons d ds ihd =>
      have hd' := sorted_cons.1 hd
      have ihd := ihd hd'.2
      intro y hy he m hm
      rw [diffStep]
      have irr : ∀ {p : Prop} {a b : Bytes}, cmpBytes a b = .lt → a = b → p := by
        intro p a b h e; rw [e, cmpBytes_self] at h; cases h
      have asym : ∀ {p : Prop} {a b : Bytes}, cmpBytes a b = .lt → cmpBytes b a = .lt → p := by
        intro p a b h h2; exact irr (cmpBytes_lt_trans h h2) rfl
      cases hc : cmpBytes b.1 d.1 with
      | lt =>
        rcases List.mem_cons.1 hx with rfl | hx
        · rcases List.mem_cons.1 hy with rfl | hy
          · exact irr hc he
          · exact irr (cmpBytes_lt_trans hc (hd'.1 y hy)) he
        · exact List.mem_cons_of_mem _ (ih (d :: ds) hd x hx y hy he m hm)
      | gt =>
        have hdb := cmp_gt_swap hc
        rcases List.mem_cons.1 hy with rfl | hy
        · rcases List.mem_cons.1 hx with rfl | hx
          · exact irr hdb he.symm
          · exact irr (cmpBytes_lt_trans hdb (hb'.1 x hx)) he.symm
        · exact List.mem_cons_of_mem _ (ihd y hy he m hm)
      | eq =>
        have hbd : b.1 = d.1 := (cmpBytes_eq_iff _ _).1 hc
        rcases List.mem_cons.1 hx with rfl | hx
        · rcases List.mem_cons.1 hy with rfl | hy
          · exact List.mem_append_left _ hm
          · exact irr (hd'.1 y hy) (hbd ▸ he)
        · rcases List.mem_cons.1 hy with rfl | hy
          · exact irr (hb'.1 x hx) (hbd.trans he.symm)
          · exact List.mem_append_right _ (ih ds hd'.2 x hx y hy he m hm)

/-- Nothing else appears than new members, removals and what is recorded for common keys. -/
theorem diffItems_only (c : Bytes × α → Bytes × α → Members α) (undef : α) : ∀ (bs ds : Members α),
    ∀ m ∈ diffItems c undef bs ds, m ∈ ds ∨ (∃ b ∈ bs, m = (b.1, undef)) ∨ ∃ b ∈ bs, ∃ d ∈ ds, b.1 = d.1 ∧ m ∈ c d b
  | [], ds, m, hm => Or.inl hm
  | b :: bs, ds, m, hm => by
    rw [diffItems] at hm
    have ih := fun ds m hm => diffItems_only c undef bs ds m hm
    have lift : ∀ {ds : Members α}, (m ∈ ds ∨ (∃ b ∈ bs, m = (b.1, undef)) ∨ ∃ b ∈ bs, ∃ d ∈ ds, b.1 = d.1 ∧ m ∈ c d b) →
        m ∈ ds ∨ (∃ x ∈ b :: bs, m = (x.1, undef)) ∨ ∃ x ∈ b :: bs, ∃ d ∈ ds, x.1 = d.1 ∧ m ∈ c d x := by
      rintro ds (h | ⟨x, hx, e⟩ | ⟨x, hx, d, hd, e⟩)
      · exact Or.inl h
      · exact Or.inr (Or.inl ⟨x, List.mem_cons_of_mem _ hx, e⟩)
      · exact Or.inr (Or.inr ⟨x, List.mem_cons_of_mem _ hx, d, hd, e⟩)
    have liftd : ∀ {d : Bytes × α} {ds : Members α}, (m ∈ ds ∨ (∃ x ∈ b :: bs, m = (x.1, undef)) ∨ ∃ x ∈ b :: bs, ∃ d ∈ ds, x.1 = d.1 ∧ m ∈ c d x) →
        m ∈ d :: ds ∨ (∃ x ∈ b :: bs, m = (x.1, undef)) ∨ ∃ x ∈ b :: bs, ∃ y ∈ d :: ds, x.1 = y.1 ∧ m ∈ c y x := by
      rintro d ds (h | h | ⟨x, hx, y, hd, e⟩)
      · exact Or.inl (List.mem_cons_of_mem _ h)
      · exact Or.inr (Or.inl h)
      · exact Or.inr (Or.inr ⟨x, hx, y, List.mem_cons_of_mem _ hd, e⟩)
    induction ds with
    | nil =>
      rw [diffStep] at hm
      obtain ⟨x, hx, e⟩ := List.mem_map.1 hm
      exact Or.inr (Or.inl ⟨x, hx, e.symm⟩)
    | cons d ds ihd =>
      rw [diffStep] at hm
      cases hc : cmpBytes b.1 d.1 with
      | lt =>
        rw [hc] at hm
        rcases List.mem_cons.1 hm with e | hm
        · exact Or.inr (Or.inl ⟨b, by simp, e⟩)
        · exact lift (ih _ m hm)
      | gt =>
        rw [hc] at hm
        rcases List.mem_cons.1 hm with e | hm
        · exact Or.inl (by rw [e]; simp)
        · exact liftd (ihd hm)
      | eq =>
        rw [hc] at hm
        rcases List.mem_append.1 hm with hm | hm
        · exact Or.inr (Or.inr ⟨b, by simp, d, by simp, (cmpBytes_eq_iff _ _).1 hc, hm⟩)
        · exact liftd (lift (ih _ m hm))

/-- `setItems` merges just as a diff is applied to an ordinary object. -/
theorem setItemsLoop_eq : ∀ (bs ds : Members α), setItemsLoop isDef bs ds = applyDiffImpl isDef defaultMerge false bs ds
  | [], ds => by
    rw [setItemsLoop, applyDiffImpl]
    dsimp only
    induction ds with
    | nil => rfl
    | cons d ds ih =>
      rw [List.filter_cons, List.flatMap_cons, ← ih, onlyDiff]
      split <;> simp
  | b :: bs, ds => by
    rw [setItemsLoop, applyDiffImpl]
    have ih := fun ds => setItemsLoop_eq bs ds
    induction ds with
    | nil => rfl
    | cons d ds ihd =>
      rw [setItemsStep, mergeStep, ih, ih, ihd]
      cases hc : cmpBytes b.1 d.1 with
      | lt => rfl
      | gt => simp [onlyDiff]
      | eq =>
        have he : b.1 = d.1 := (cmpBytes_eq_iff _ _).1 hc
        simp [bothDiff, defaultMerge, he]

end Imt.ObjB

namespace Imt.Obj
open Imt.Spec
variable {α : Type}

theorem lastVal_mem {l : Members α} {k : Bytes} {v : α} (h : lastVal l k = some v) : (k, v) ∈ l := by
  induction l with
  | nil => cases h
  | cons m l ih =>
    obtain ⟨k', w⟩ := m
    rw [lastVal] at h
    cases e : lastVal l k with
    | some x => rw [e] at h; cases h; exact List.mem_cons_of_mem _ (ih e)
    | none =>
      rw [e] at h
      dsimp only at h
      split at h
      · next e2 => cases h; subst e2; exact List.mem_cons_self
      · cases h

theorem lookup_eq_lastVal_nodup {l : Members α} (h : (l.map (·.1)).Nodup) (k : Bytes) : lookup l k = lastVal l k := by
  induction l with
  | nil => rfl
  | cons m l ih =>
    obtain ⟨k', w⟩ := m
    rw [List.map_cons, List.nodup_cons] at h
    rw [lookup, lastVal, ih h.2]
    by_cases e : k' = k
    · subst e
      rw [(lastVal_none_iff l k').2 h.1]
    · rw [if_neg e, if_neg e]
      cases lastVal l k <;> rfl

theorem sorted_strict {l : Members α} (hs : Sorted l) (hn : (l.map (·.1)).Nodup) : StrictSorted l := by
  induction l with
  | nil => exact List.Pairwise.nil
  | cons m l ih =>
    rw [List.map_cons, List.nodup_cons] at hn
    have hs' := List.pairwise_cons.1 hs
    refine List.pairwise_cons.2 ⟨?_, ih hs'.2 hn.2⟩
    intro x hx
    have h1 := hs'.1 x hx
    cases hc : cmpBytes m.1 x.1 with
    | lt => rfl
    | gt => exact absurd hc h1
    | eq => exact absurd (List.mem_map.2 ⟨x, hx, ((cmpBytes_eq_iff _ _).1 hc).symm⟩) hn.1

end Imt.Obj
