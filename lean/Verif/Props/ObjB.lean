import Verif.Lemmas.ObjB
import Verif.Spec.MapOps
/-!
# Properties of the object builder (C25, C27, C28, C29, C30)
-/
namespace Imt.Props
open Imt Imt.Obj Imt.ObjB Imt.Spec

variable {α : Type}

/-! ## C25 — the builder behaves as a finite map -/

/-- The builder operation behind each map operation. -/
def runO (isDef : α → Bool) (undef : α) : MOp α → OB α → Res (Seen α × OB α)
  | .set k v, s => .ok (.nothing, ObjB.set isDef s k v)
  | .unset k, s => .ok (.nothing, ObjB.unset isDef undef s k)
  | .merge ms, s => .ok (.nothing, ObjB.merge isDef s ms)
  | .clear, s => .ok (.nothing, ObjB.clear s)
  | .revert, s => .ok (.nothing, ObjB.revert s)
  | .setBase ms d, s => .ok (.nothing, ObjB.setBase s ms d)
  | .copy, s => .ok (.nothing, (ObjB.copy isDef s).1)
  | .read k, s => do let r ← ObjB.get isDef undef s k; pure (.value r.1, r.2)
  | .commit, s => .ok (.members (ObjB.commit isDef s).1, (ObjB.commit isDef s).2)
  | .iterate, s => .ok (.members (ObjB.iterate isDef s).1, (ObjB.iterate isDef s).2)

/-- A run of the builder: what was seen, and the final state. -/
def runOs (isDef : α → Bool) (undef : α) : List (MOp α) → OB α → Res (List (Seen α) × OB α)
  | [], s => .ok ([], s)
  | op :: ops, s => do
    let r ← runO isDef undef op s
    let t ← runOs isDef undef ops r.2
    pure (r.1 :: t.1, t.2)

/-- What should be seen in a run of the map. -/
def allSeen (isDef : α → Bool) (undef : α) : List (MOp α) → MState α → List (Seen α) → Prop
  | [], _, l => l = []
  | op :: ops, s, l => ∃ o r, l = o :: r ∧ op.sees isDef undef s o ∧ allSeen isDef undef ops (op.run undef s) r

/-- The builder represents the map state. -/
structure RepO (s : OB α) (m : MState α) : Prop where
  inv : Inv s
  diff : m.diff = s.baseDiff
  base : ∀ k, m.base k = lookup s.base k
  chg : ∀ k, m.chg k = recorded s k

theorem foldl_upd (ms : List (Bytes × α)) : ∀ (f : Bytes → Option α) k,
    ms.foldl (fun f m => upd f m.1 m.2) f k = (lastVal ms k).or (f k) := by
  induction ms with
  | nil => exact fun f k => rfl
  | cons m ms ih =>
    intro f k
    rw [List.foldl_cons, ih, lastVal]
    cases lastVal ms k with
    | some v => rfl
    | none => simp only [Option.none_or, upd]; split <;> simp

theorem result_comb (isDef : α → Bool) {s : OB α} {m : MState α} (h : RepO s m) (k : Bytes) :
    comb isDef defaultMerge s.baseDiff (lookup s.base k) (recorded s k) = m.result isDef k := by
  unfold comb MState.result
  rw [h.chg, h.base, h.diff]
  cases recorded s k with
  | none => rfl
  | some v =>
    dsimp only
    cases isDef v <;> cases s.baseDiff <;> cases lookup s.base k <;> rfl

theorem show_cur {s : OB α} {m : MState α} (h : RepO s m) (undef : α) (k : Bytes) : cur undef s k = m.show undef k := by
  unfold cur MState.show
  rw [h.chg, h.base]
  cases recorded s k <;> simp

theorem copy_inv (isDef : α → Bool) {s : OB α} (h : Inv s) : Inv (ObjB.copy isDef s).1 ∧
    (∀ k, recorded (ObjB.copy isDef s).1 k = recorded s k) ∧ (ObjB.copy isDef s).1.base = s.base ∧
    (ObjB.copy isDef s).1.baseDiff = s.baseDiff := by
  obtain ⟨a1, a2, a3, a4, a5, a6⟩ := optimize_spec isDef h
  unfold ObjB.copy commitAsDiff
  dsimp only
  refine ⟨⟨h.base, a1.ordered, ?_, ?_⟩, ?_, rfl, rfl⟩
  · intro e
    simpa using e
  · intro u e
    cases ho : (optimize isDef s).ordered with
    | none => rw [ho] at e; simp at e
    | some o =>
      rw [ho] at e; simp at e
      subst e
      have := (a1.ordered o ho).2
      simp [List.length_pos_iff, this]
  · intro k
    have h2 := a2 k
    cases ho : (optimize isDef s).ordered with
    | none =>
      rw [← h2]
      cases hx : (optimize isDef s).unordered with
      | none => simp [recorded, hx, ho]
      | some u' => simp [recorded, hx, ho, a6 u' hx]
    | some o =>
      rw [← h2]
      cases hx : (optimize isDef s).unordered with
      | none => have := a1.un hx; rw [ho] at this; cases this
      | some u' => simp [recorded, hx, ho, a6 u' hx]

theorem iterate_inv (isDef : α → Bool) {s : OB α} (h : Inv s) : Inv (ObjB.iterate isDef s).2 ∧
    (∀ k, recorded (ObjB.iterate isDef s).2 k = recorded s k) ∧ (ObjB.iterate isDef s).2.base = s.base ∧
    (ObjB.iterate isDef s).2.baseDiff = s.baseDiff := by
  unfold ObjB.iterate
  cases s.snap with
  | some l => exact ⟨h, fun _ => rfl, rfl, rfl⟩
  | none =>
    obtain ⟨a1, a2, a3, a4, _⟩ := commit_spec isDef h
    exact ⟨⟨a1.base, a1.ordered, a1.un, a1.cap⟩, a2, a3, a4⟩

theorem runO_rep (isDef : α → Bool) (undef : α) (op : MOp α) (hc : op.Canon) {s : OB α} {m : MState α} (h : RepO s m) :
    ∃ o s', runO isDef undef op s = .ok (o, s') ∧ op.sees isDef undef m o ∧ RepO s' (op.run undef m) := by
  cases op with
  | set k v =>
    obtain ⟨a1, a2, a3, a4, _⟩ := setInternal_spec isDef h.inv (k, v)
    refine ⟨_, _, rfl, trivial, ⟨a1, h.diff.trans a4.symm, fun x => (h.base x).trans (by unfold ObjB.set; rw [a3]), ?_⟩⟩
    intro x; unfold ObjB.set; rw [a2]; simp only [MOp.run, upd]; rw [h.chg]
  | unset k =>
    obtain ⟨a1, a2, a3, a4, _⟩ := setInternal_spec isDef h.inv (k, undef)
    refine ⟨_, _, rfl, trivial, ⟨a1, h.diff.trans a4.symm, fun x => (h.base x).trans (by unfold ObjB.unset ObjB.set; rw [a3]), ?_⟩⟩
    intro x; unfold ObjB.unset ObjB.set; rw [a2]; simp only [MOp.run, upd]; rw [h.chg]
  | merge ms =>
    obtain ⟨a1, a2, a3, a4⟩ := foldl_set_spec isDef ms h.inv
    refine ⟨_, _, rfl, trivial, ⟨a1, h.diff.trans a4.symm, fun x => (h.base x).trans (by unfold ObjB.merge; rw [a3]), ?_⟩⟩
    intro x; unfold ObjB.merge; rw [a2]; simp only [MOp.run]; rw [foldl_upd, h.chg]
  | clear =>
    exact ⟨_, _, rfl, trivial, ⟨⟨List.Pairwise.nil, by simp [clear, revert], by simp [clear, revert], by simp [clear, revert]⟩,
      rfl, fun _ => rfl, fun _ => by simp [MOp.run, clear, revert, recorded, lastVal, lookup]⟩⟩
  | revert =>
    exact ⟨_, _, rfl, trivial, ⟨⟨h.inv.base, by simp [revert], by simp [revert], by simp [revert]⟩,
      h.diff, h.base, fun _ => by simp [MOp.run, revert, recorded, lastVal, lookup]⟩⟩
  | setBase ms d =>
    exact ⟨_, _, rfl, trivial, ⟨⟨hc, h.inv.ordered, h.inv.un, h.inv.cap⟩, rfl, fun _ => rfl, h.chg⟩⟩
  | copy =>
    obtain ⟨a1, a2, a3, a4⟩ := copy_inv isDef h.inv
    exact ⟨_, _, rfl, trivial, ⟨a1, h.diff.trans a4.symm, fun x => (h.base x).trans (by rw [a3]), fun x => (h.chg x).trans (a2 x).symm⟩⟩
  | read k =>
    obtain ⟨s', e, a1, a2, a3, a4, _⟩ := get_spec isDef h.inv undef k
    refine ⟨.value (cur undef s k), s', by simp [runO, e], ?_, ⟨a1, h.diff.trans a4.symm, fun x => (h.base x).trans (by rw [a3]), fun x => (h.chg x).trans (a2 x).symm⟩⟩
    exact congrArg _ (show_cur h undef k)
  | commit =>
    obtain ⟨a1, a2, a3, a4, _, a6, a7⟩ := commit_spec isDef h.inv
    refine ⟨_, _, rfl, ⟨_, rfl, a6, fun k => (a7 k).trans (result_comb isDef h k)⟩, ⟨a1, h.diff.trans a4.symm, fun x => (h.base x).trans (by rw [a3]), fun x => (h.chg x).trans (a2 x).symm⟩⟩
  | iterate =>
    obtain ⟨a1, a2, a3, a4⟩ := iterate_inv isDef h.inv
    exact ⟨_, _, rfl, trivial, ⟨a1, h.diff.trans a4.symm, fun x => (h.base x).trans (by rw [a3]), fun x => (h.chg x).trans (a2 x).symm⟩⟩

theorem rep_start {b : Members α} (d : Bool) (hb : StrictSorted b) :
    RepO (ofBase b d) ⟨d, lookup b, fun _ => none⟩ :=
  ⟨inv_ofBase d hb, rfl, fun _ => rfl, fun _ => by simp [ofBase, recorded, lastVal, lookup]⟩

theorem runOs_seen (isDef : α → Bool) (undef : α) : ∀ (ops : List (MOp α)) {s : OB α} {m : MState α}, RepO s m →
    (∀ op ∈ ops, op.Canon) → ∃ l s', runOs isDef undef ops s = .ok (l, s') ∧ allSeen isDef undef ops m l
  | [], s, m, _, _ => ⟨[], s, rfl, rfl⟩
  | op :: ops, s, m, h, hc => by
    obtain ⟨o, s1, e1, h1, h2⟩ := runO_rep isDef undef op (hc op (by simp)) h
    obtain ⟨l, s2, e2, h3⟩ := runOs_seen isDef undef ops h2 (fun x hx => hc x (List.mem_cons_of_mem _ hx))
    exact ⟨o :: l, s2, by rw [runOs, e1]; simp [e2], o, l, rfl, h1, h3⟩

/-- C25: over every canonical base (diff objects included) and every sequence of operations, no operation runs into
undefined behaviour and every read and every commit shows exactly the finite map the operations describe. -/
theorem C25_map (isDef : α → Bool) (undef : α) (b : Members α) (d : Bool) (hb : StrictSorted b) (ops : List (MOp α))
    (hc : ∀ op ∈ ops, op.Canon) :
    ∃ l s', runOs isDef undef ops (ofBase b d) = .ok (l, s') ∧
      allSeen isDef undef ops ⟨d, lookup b, fun _ => none⟩ l :=
  runOs_seen isDef undef ops (rep_start d hb) hc

/-- Forty changes with reads in between: enough for three reorganisations. -/
def manyOps : List (MOp Nat) :=
  (List.range 40).flatMap (fun i => [.set [i % 13] (i + 1), .read [i % 7]]) ++ [.unset [3], .read [3], .commit]

example : StrictSorted [([1], 5), ([2], 6), ([200], 7)] ∧ ∀ op ∈ manyOps, op.Canon :=
  ⟨by decide, by intro op h; simp only [manyOps, List.mem_append, List.mem_flatMap] at h
                 rcases h with ⟨i, _, h⟩ | h <;> simp at h <;> rcases h with rfl | h <;> try trivial
                 · subst h; trivial
                 · rcases h with rfl | rfl <;> trivial⟩

example : (match runOs (· != 0) 0 manyOps (ofBase [([1], 5), ([200], 7)]) with
    | .ok (l, _) => (match l.getLast? with | some (.members m) => m | _ => [])
    | _ => []) = [([0], 40), ([1], 28), ([2], 29), ([4], 31), ([5], 32), ([6], 33), ([7], 34), ([8], 35), ([9], 36),
      ([10], 37), ([11], 38), ([12], 39), ([200], 7)] := by decide +kernel

/-! ### Size of a builder -/

theorem onlyDiff_len1 (isDef : α → Bool) (cd : Bool) (d : Bytes × α) : (onlyDiff isDef cd d).length ≤ 1 := by
  unfold onlyDiff; split
  · exact Nat.le_refl _
  · split <;> simp

theorem bothDiff_len1 (isDef : α → Bool) (f : α → α → α) (cd : Bool) (b d : Bytes × α) : (bothDiff isDef f cd b d).length ≤ 1 := by
  unfold bothDiff; split
  · exact Nat.le_refl _
  · split <;> simp

theorem applyDiffImpl_len (isDef : α → Bool) (f : α → α → α) (cd : Bool) : ∀ (bs ds : Members α),
    (applyDiffImpl isDef f cd bs ds).length ≤ bs.length + ds.length
  | [], ds => by
    rw [applyDiffImpl]
    induction ds with
    | nil => exact Nat.zero_le _
    | cons d ds ih =>
      have := onlyDiff_len1 isDef cd d
      simp only [List.flatMap_cons, List.length_append, List.length_cons, List.length_nil] at *
      omega
  | b :: bs, ds => by
    rw [applyDiffImpl]
    induction ds with
    | nil => exact Nat.le_refl _
    | cons d ds ih =>
      have h1 := onlyDiff_len1 isDef cd d
      have h2 := bothDiff_len1 isDef f cd b d
      have h3 := applyDiffImpl_len isDef f cd bs (d :: ds)
      have h4 := applyDiffImpl_len isDef f cd bs ds
      rw [mergeStep]
      split <;> simp only [List.length_append, List.length_cons] at * <;> omega

theorem dedupe_len : ∀ (l : Members α) (p : Bytes) (out : Members α), (dedupe p out l).length ≤ out.length + l.length
  | [], p, out => by rw [dedupe]; simp
  | m :: l, p, out => by
    rw [dedupe]
    have h1 : (pushLast p out m).length ≤ out.length + 1 := by
      unfold pushLast; split <;> simp
    have := dedupe_len l m.1 (pushLast p out m)
    simp only [List.length_cons]
    omega

theorem sort_len (l : Members α) : (Obj.sort l).length ≤ l.length := by
  have := dedupe_len (stableSort l) [] []
  rw [(stableSort_perm l).length_eq] at this
  unfold Obj.sort; simpa using this

/-- **C25.** The size a builder reports is never below the number of members it commits (a hint, object.h:168-174: repeated and removed keys
count), and exactly that number while nothing is recorded. -/
theorem C25_size (isDef : α → Bool) (s : OB α) :
    (ObjB.commit isDef s).1.length ≤ ObjB.size s ∧
    (ObjB.dirty s = false → (ObjB.commit isDef s).1 = s.base ∧ ObjB.size s = s.base.length) := by
  have key : ∀ (b o : Members α) cd, (ObjB.applyDiff isDef cd b o).length ≤ b.length + o.length :=
    fun b o cd => applyDiffImpl_len isDef defaultMerge cd b o
  have e0 : ∀ (b : Members α) cd, ObjB.applyDiff isDef cd b [] = b := by
    intro b cd; cases b <;> rfl
  obtain ⟨b, bd, o, u, sn⟩ := s
  unfold ObjB.commit ObjB.optimize ObjB.size ObjB.dirty
  cases u with
  | none =>
    cases o with
    | none => simp
    | some o =>
      refine ⟨by have := key b o bd; simpa using this, fun h => ?_⟩
      have : o = [] := by cases o with | nil => rfl | cons => cases h
      subst this
      simp [e0]
  | some u =>
    obtain ⟨c, it⟩ := u
    cases it with
    | nil =>
      cases o with
      | none => simp
      | some o =>
        refine ⟨by have := key b o bd; simpa using this, fun h => ?_⟩
        have : o = [] := by cases o with | nil => rfl | cons => cases h
        subst this
        simp [e0]
    | cons m it =>
      have h1 := sort_len (m :: it)
      refine ⟨?_, fun h => by cases o <;> simp at h⟩
      cases o with
      | none =>
        have := key b (Obj.sort (m :: it)) bd
        simp only [List.length_cons, Nat.add_eq_zero_iff, Nat.one_ne_zero, and_false, if_false] at *
        omega
      | some o =>
        have h2 := applyDiffImpl_len isDef defaultMerge true o (Obj.sort (m :: it))
        have := key b (applyDiffImpl isDef defaultMerge true o (Obj.sort (m :: it))) bd
        simp only [List.length_cons, Nat.add_eq_zero_iff, Nat.one_ne_zero, and_false, if_false] at *
        omega

example : ObjB.size (ObjB.set (· != 0) (ObjB.set (· != 0) (ofBase [([97], 1), ([98], 2)]) [97] 0) [97] 3) = 4 ∧
    (ObjB.commit (· != 0) (ObjB.set (· != 0) (ObjB.set (· != 0) (ofBase [([97], 1), ([98], 2)]) [97] 0) [97] 3)).1.length = 2 ∧
    ObjB.dirty (ofBase [([97], 1), ([98], 2)]) = false := by decide +kernel

/-! ## C27 — iteration -/

/-- Whether the cached enumeration may be out of date: `pend` – an enumeration is cached, `stale` – the content was
replaced since by an operation that does not drop it. -/
structure Flags where
  pend : Bool
  stale : Bool

/-- Flags after an operation. -/
def MOp.flags : MOp α → Flags → Flags
  | .set _ _, _ => ⟨false, false⟩
  | .unset _, _ => ⟨false, false⟩
  | .merge ms, f => if ms.isEmpty then f else ⟨false, false⟩
  | .clear, f => ⟨f.pend, f.pend⟩
  | .revert, f => ⟨f.pend, f.pend⟩
  | .setBase _ _, f => ⟨f.pend, f.pend⟩
  | .copy, _ => ⟨false, false⟩
  | .iterate, f => ⟨true, f.stale⟩
  | _, f => f

/-- Every enumeration made while not stale shows the committed members. -/
def iterSeen (isDef : α → Bool) (undef : α) : List (MOp α) → MState α → Flags → List (Seen α) → Prop
  | [], _, _, l => l = []
  | op :: ops, s, f, l => ∃ o r, l = o :: r ∧
      (f.stale = false → op = .iterate →
        ∃ l, o = .members l ∧ StrictSorted l ∧ ∀ k, lookup l k = s.result isDef k) ∧
      iterSeen isDef undef ops (op.run undef s) (MOp.flags op f) r

/-- The cached enumeration is as the flags say. -/
structure Fresh (isDef : α → Bool) (s : OB α) (f : Flags) : Prop where
  pend : s.snap ≠ none → f.pend = true
  stale : f.stale = false → ∀ l, s.snap = some l → l = (ObjB.commit isDef s).1

theorem foldl_snap (isDef : α → Bool) (ms : Members α) : ∀ {s : OB α}, Inv s → s.snap = none →
    (ms.foldl (fun s m => setInternal isDef s m) s).snap = none := by
  induction ms with
  | nil => exact fun _ h => h
  | cons m ms ih =>
    intro s h hs
    obtain ⟨a1, _, _, _, a5⟩ := setInternal_spec isDef h m
    exact ih a1 a5

theorem fresh_none (isDef : α → Bool) {s : OB α} (f : Flags) (h : s.snap = none) : Fresh isDef s f :=
  ⟨fun e => absurd h e, fun _ l e => by rw [h] at e; cases e⟩

theorem fresh_step (isDef : α → Bool) (undef : α) (op : MOp α) (hc : op.Canon) {s : OB α} {f : Flags} (h : Inv s) (hf : Fresh isDef s f)
    {o : Seen α} {s' : OB α} (e : runO isDef undef op s = .ok (o, s')) : Fresh isDef s' (MOp.flags op f) := by
  have lose : ∀ {s' : OB α}, s'.snap = s.snap → Fresh isDef s' ⟨f.pend, f.pend⟩ := by
    intro s' hs
    refine ⟨fun hx => hf.pend (by rw [← hs]; exact hx), ?_⟩
    intro hp l hl
    rw [hs] at hl
    have := hf.pend (by rw [hl]; simp)
    rw [show f.pend = false from hp] at this; cases this
  have keep : ∀ {s' : OB α}, s'.snap = s.snap → (ObjB.commit isDef s').1 = (ObjB.commit isDef s).1 → Fresh isDef s' f := by
    intro s' hs hcm
    exact ⟨fun hx => hf.pend (by rw [← hs]; exact hx), fun hp l hl => by rw [hcm]; exact hf.stale hp l (by rw [← hs]; exact hl)⟩
  cases op with
  | set k v => cases e; exact fresh_none _ _ (setInternal_spec isDef h (k, v)).2.2.2.2
  | unset k => cases e; exact fresh_none _ _ (setInternal_spec isDef h (k, undef)).2.2.2.2
  | merge ms =>
    cases e
    cases ms with
    | nil => exact hf
    | cons m ms =>
      obtain ⟨a1, _, _, _, a5⟩ := setInternal_spec isDef h m
      exact fresh_none _ _ (foldl_snap isDef ms a1 a5)
  | clear => cases e; exact lose rfl
  | revert => cases e; exact lose rfl
  | setBase ms d => cases e; exact lose rfl
  | copy => cases e; exact fresh_none _ _ rfl
  | read k =>
    obtain ⟨s2, e2, a1, a2, a3, a4, a5⟩ := get_spec isDef h undef k
    simp [runO, e2] at e
    rw [← e.2]
    exact keep a5 (commit_congr isDef h a1 a2 a3 a4)
  | commit =>
    cases e
    obtain ⟨a1, a2, a3, a4, a5, _⟩ := commit_spec isDef h
    exact keep a5 (commit_congr isDef h a1 a2 a3 a4)
  | iterate =>
    cases e
    unfold ObjB.iterate
    cases hs : s.snap with
    | some l => exact ⟨fun _ => rfl, fun hp l' hl' => hf.stale hp l' hl'⟩
    | none =>
      obtain ⟨a1, a2, a3, a4, a5, _⟩ := commit_spec isDef h
      refine ⟨fun _ => rfl, ?_⟩
      intro _ l hl
      cases hl
      exact (commit_congr isDef h (s' := { (ObjB.commit isDef s).2 with snap := some (ObjB.commit isDef s).1 })
        ⟨a1.base, a1.ordered, a1.un, a1.cap⟩ a2 a3 a4).symm

theorem iter_run (isDef : α → Bool) (undef : α) : ∀ (ops : List (MOp α)) {s : OB α} {m : MState α} {f : Flags}, RepO s m →
    Fresh isDef s f → (∀ op ∈ ops, op.Canon) →
    ∃ l s', runOs isDef undef ops s = .ok (l, s') ∧ iterSeen isDef undef ops m f l
  | [], s, m, f, _, _, _ => ⟨[], s, rfl, rfl⟩
  | op :: ops, s, m, f, h, hf, hc => by
    obtain ⟨o, s1, e1, h1, h2⟩ := runO_rep isDef undef op (hc op (by simp)) h
    have hf1 := fresh_step isDef undef op (hc op (by simp)) h.inv hf e1
    obtain ⟨l, s2, e2, h3⟩ := iter_run isDef undef ops h2 hf1 (fun x hx => hc x (List.mem_cons_of_mem _ hx))
    refine ⟨o :: l, s2, by rw [runOs, e1]; simp [e2], o, l, rfl, ?_, h3⟩
    rintro hst rfl
    obtain ⟨_, _, _, _, _, a6, a7⟩ := commit_spec isDef h.inv
    cases e1
    refine ⟨_, rfl, ?_⟩
    have e : (ObjB.iterate isDef s).1 = (ObjB.commit isDef s).1 := by
      unfold ObjB.iterate
      cases hs : s.snap with
      | some l => exact hf.stale hst l hs
      | none => rfl
    rw [e]
    exact ⟨a6, fun k => (a7 k).trans (result_comb isDef h k)⟩

/-- C27, partial: every enumeration shows the members a commit would give, unless `clear`, `revert` or `setBaseObject`
came after an earlier enumeration with no change of a member in between (`C27_violation_clear` shows what happens then). -/
theorem C27_iterate_partial (isDef : α → Bool) (undef : α) (b : Members α) (d : Bool) (hb : StrictSorted b)
    (ops : List (MOp α)) (hc : ∀ op ∈ ops, op.Canon) :
    ∃ l s', runOs isDef undef ops (ofBase b d) = .ok (l, s') ∧
      iterSeen isDef undef ops ⟨d, lookup b, fun _ => none⟩ ⟨false, false⟩ l :=
  iter_run isDef undef ops (rep_start d hb) (fresh_none _ _ rfl) hc

/-- C27 fails: after `clear` the builder is empty, yet the enumeration still shows the old member. -/
theorem C27_violation_clear :
    let s := ObjB.clear (ObjB.iterate (· != 0) (ObjB.set (· != 0) (new : OB Nat) [97] 1)).2
    (ObjB.iterate (· != 0) s).1 = [([97], 1)] ∧ (ObjB.commit (· != 0) s).1 = [] := by decide +kernel

/-- C27 fails likewise after `revert` … -/
theorem C27_violation_revert :
    let s := ObjB.revert (ObjB.iterate (· != 0) (ObjB.set (· != 0) (ofBase [([98], 2)]) [97] 1)).2
    (ObjB.iterate (· != 0) s).1 = [([97], 1), ([98], 2)] ∧ (ObjB.commit (· != 0) s).1 = [([98], 2)] := by decide +kernel

/-- … and after an assignment to a builder that was enumerated. -/
theorem C27_violation_assign :
    let t := (ObjB.iterate (· != 0) (ofBase [([98], 2)])).2
    let s := (ObjB.assign (· != 0) t (ObjB.set (· != 0) (new : OB Nat) [97] 1)).1
    (ObjB.iterate (· != 0) s).1 = [([98], 2)] ∧ (ObjB.commit (· != 0) s).1 = [([97], 1)] := by decide +kernel

/-! ## C28 — diff and patch -/

/-- C28, partial: applying the diff from `a` to `b` gives a canonical object with the keys of `b`, where every value is
that of `b` or, when `operator!=` saw no difference, that of `a`. Missing: objects `b` that hold undefined members
(`C28_violation_undefined_member`) and diff objects as `a`. -/
theorem C28_diff_patch_partial (isDef : α → Bool) (undef : α) (hu : isDef undef = false) (neq : α → α → Bool)
    (a b : Members α) (ha : StrictSorted a) (hb : StrictSorted b) (hd : ∀ m ∈ b, isDef m.2 = true) :
    let r := ObjB.applyDiff isDef false a (ObjB.commitAsDiff isDef (ObjB.createDiff isDef neq undef new a b)).1
    StrictSorted r ∧ ∀ k,
      (lookup b k = none → lookup r k = none) ∧
      (∀ v, lookup b k = some v → lookup r k = some v ∨ ∃ o, lookup a k = some o ∧ neq v o = false ∧ lookup r k = some o) := by
  dsimp only
  unfold createDiff ObjB.applyDiff
  have hs := record_sorted isDef (diffItems (common0 neq) undef a b)
  refine ⟨applyDiffImpl_sorted isDef _ _ ha hs, ?_⟩
  intro k
  rw [applyDiffImpl_lookup isDef _ _ ha hs, record_lookup]
  obtain ⟨_, d2, d3⟩ := diffItems_spec neq undef a b ha hb
  rw [← lookup_eq_lastVal d2, d3]
  refine ⟨?_, ?_⟩
  · intro e
    rw [e]
    cases lookup a k <;> simp [dcomb, comb, hu]
  · intro v e
    have hv := hd _ (lookup_mem e)
    rw [e]
    cases ho : lookup a k with
    | none => simp [dcomb, comb, hv]
    | some o =>
      by_cases hn : neq v o = true
      · simp [dcomb, comb, hv, hn, defaultMerge]
      · right
        refine ⟨o, rfl, by simpa using hn, ?_⟩
        simp [dcomb, comb, hn]

/-- C28, partial: with an exact `operator!=` the result is `b` itself. -/
theorem C28_exact_partial (isDef : α → Bool) (undef : α) (hu : isDef undef = false) (neq : α → α → Bool)
    (hn : ∀ x y, neq x y = false → x = y)
    (a b : Members α) (ha : StrictSorted a) (hb : StrictSorted b) (hd : ∀ m ∈ b, isDef m.2 = true) :
    ObjB.applyDiff isDef false a (ObjB.commitAsDiff isDef (ObjB.createDiff isDef neq undef new a b)).1 = b := by
  obtain ⟨h1, h2⟩ := C28_diff_patch_partial isDef undef hu neq a b ha hb hd
  apply eq_of_lookup_eq h1 hb
  intro k
  cases e : lookup b k with
  | none => exact (h2 k).1 e
  | some v =>
    rcases (h2 k).2 v e with h | ⟨o, _, ho, h⟩
    · exact h
    · rw [h, hn _ _ ho]

example : StrictSorted [([97], 1), ([98], 2), ([99], 3)] ∧ StrictSorted [([98], 5), ([99], 3), ([100], 4)] ∧
    (∀ m ∈ [(([98] : Bytes), 5), ([99], 3), ([100], 4)], (m.2 != 0) = true) ∧
    (ObjB.commitAsDiff (· != 0) (ObjB.createDiff (· != 0) (· != ·) 0 new [([97], 1), ([98], 2), ([99], 3)]
      [([98], 5), ([99], 3), ([100], 4)])).1 = [([97], 0), ([98], 5), ([100], 4)] := by decide +kernel

/-- C28 fails for an object with an undefined member: the member is lost. -/
theorem C28_violation_undefined_member :
    ObjB.applyDiff defd false [] (ObjB.makeDiff (fun _ _ => true) 0 [] [([97], JV.undef)]) = [] := by decide +kernel

/-! ## C29 — recursive diff and patch -/

/-- No key has an object on both sides. -/
def NoCommonObjects (a b : Members JV) : Prop :=
  ∀ k x y, lookup a k = some (JV.obj x) → lookup b k = some (JV.obj y) → False

/-- C29, partial: without a key that has objects on both sides every depth gives what depth zero gives, hence (C28) the
second object. All other cases fail, `C29_violation_always`. -/
theorem C29_flat_partial (neq : JV → JV → Bool) (hn : ∀ x y, neq x y = false → x = y) (n : Nat) (a b : Members JV)
    (ha : StrictSorted a) (hb : StrictSorted b) (hd : ∀ m ∈ b, defd m.2 = true) (hc : NoCommonObjects a b) :
    ObjB.applyDiff defd false a (ObjB.makeDiff neq n a b) = b := by
  have e : diffR neq n a b = diffItems (common0 neq) .undef a b := by
    cases n with
    | zero => rfl
    | succ n =>
      rw [diffR]
      apply diffItems_congr
      intro x hx y hy he
      split
      · next bb dd h1 h2 =>
        refine absurd (hc x.1 bb dd ?_ ?_) id
        · exact lookup_of_mem ha (by rw [← h1]; exact hx)
        · exact lookup_of_mem hb (by rw [← h2, he]; exact hy)
      · rfl
  unfold makeDiff
  rw [e]
  exact C28_exact_partial defd .undef rfl neq hn a b ha hb hd

example : NoCommonObjects [([97], .obj [([98], .null)]), ([99], .null)] [([97], .bool true), ([99], .obj [])] := by
  intro k x y h1 h2
  by_cases h : [97] = k
  · subst h; cases h2
  · by_cases h' : [99] = k
    · subst h'; cases h1
    · simp [lookup, h, h'] at h1

/-- C29 fails whenever some key has objects on both sides (even equal ones): the result has a member with an empty key. -/
theorem C29_violation_always (neq : JV → JV → Bool) (n : Nat) (a b : Members JV) (ha : StrictSorted a)
    (hb : StrictSorted b) (ea : lookup a [] = none) (eb : lookup b [] = none) (k : Bytes) (x y : Members JV)
    (hx : lookup a k = some (.obj x)) (hy : lookup b k = some (.obj y)) :
    ObjB.applyDiff defd false a (ObjB.makeDiff neq (n + 1) a b) ≠ b := by
  intro e
  have h0 : lookup (ObjB.applyDiff defd false a (ObjB.makeDiff neq (n + 1) a b)) [] = none := by rw [e]; exact eb
  revert h0
  unfold ObjB.applyDiff makeDiff
  rw [applyDiffImpl_lookup defd _ _ ha (record_sorted _ _), record_lookup, ea]
  have hmem : ∃ v, ([], v) ∈ diffR neq (n + 1) a b := by
    rw [diffR]
    exact ⟨_, diffItems_mem _ _ a b ha hb _ (lookup_mem hx) _ (lookup_mem hy) rfl _ (List.mem_singleton.2 rfl)⟩
  have hall : ∀ v, ([], v) ∈ diffR neq (n + 1) a b → defd v = true := by
    intro v hv
    rw [diffR] at hv
    rcases diffItems_only _ _ a b _ hv with h | ⟨m, hm, h⟩ | ⟨m, hm, d, hd, h1, h2⟩
    · rw [lookup_of_mem hb h] at eb; cases eb
    · have h1 : m.1 = [] := (congrArg Prod.fst h).symm
      have : ([], m.2) ∈ a := by rw [← h1]; exact hm
      rw [lookup_of_mem ha this] at ea; cases ea
    · split at h2
      · have := List.mem_singleton.1 h2
        cases this; rfl
      · unfold common0 at h2
        split at h2
        · have h3 : ([], v) = d := List.mem_singleton.1 h2
          rw [← h3] at hd
          rw [lookup_of_mem hb hd] at eb; cases eb
        · simp at h2
  have hlast : ∃ v, lastVal (diffR neq (n + 1) a b) [] = some v ∧ ([], v) ∈ diffR neq (n + 1) a b := by
    obtain ⟨v, hv⟩ := hmem
    cases hl : lastVal (diffR neq (n + 1) a b) [] with
    | none => rw [lastVal_none_iff] at hl; exact absurd (List.mem_map.2 ⟨_, hv, rfl⟩) hl
    | some w => exact ⟨w, rfl, lastVal_mem hl⟩
  obtain ⟨v, h1, h2⟩ := hlast
  rw [h1]
  simp [comb, hall v h2]

/-- The smallest case: nothing changed, yet patching adds a member. -/
theorem C29_violation_equal :
    ObjB.applyDiff defd false [([97], .obj [])] (ObjB.makeDiff (fun _ _ => false) 1 [([97], .obj [])] [([97], .obj [])]) =
      [([], .obj []), ([97], .obj [])] := by decide +kernel

example : lookup [(([97] : Bytes), JV.obj [])] [] = none := rfl

/-! ## C30 — setItems -/

/-- C30, partial: updates with distinct keys, in any order, override the members; undefined removes; the rest stays; the
result is canonical. Missing: repeated keys (`C30_violation_repeated`). -/
theorem C30_setItems_partial (isDef : α → Bool) (v fields : Members α) (hv : StrictSorted v)
    (hf : (fields.map (·.1)).Nodup) :
    StrictSorted (ObjB.setItems isDef v fields) ∧ ∀ k, lookup (ObjB.setItems isDef v fields) k =
      match lookup fields k with
      | none => lookup v k
      | some x => if isDef x then some x else none := by
  have hs : StrictSorted (stableSort fields) := sorted_strict (stableSort_sorted fields)
    ((stableSort_perm fields).map (·.1) |>.nodup_iff.2 hf)
  unfold ObjB.setItems
  rw [setItemsLoop_eq]
  refine ⟨applyDiffImpl_sorted isDef _ _ hv hs, ?_⟩
  intro k
  rw [applyDiffImpl_lookup isDef _ _ hv hs, lookup_eq_lastVal hs, stableSort_lastVal, lookup_eq_lastVal_nodup hf]
  cases lastVal fields k with
  | none => rfl
  | some x => cases lookup v k <;> simp [comb, defaultMerge]

example : (([([99], 0), ([97], 5)] : Members Nat).map (·.1)).Nodup ∧
    ObjB.setItems (· != 0) [([98], 1), ([99], 2)] [([99], 0), ([97], 5)] = [([97], 5), ([98], 1)] := by decide +kernel

/-- C30 fails for a repeated key: the result has the key twice and is not canonical. -/
theorem C30_violation_repeated :
    ObjB.setItems (· != 0) [([98], 1)] [([97], 2), ([97], 3)] = [([97], 2), ([97], 3), ([98], 1)] := by decide +kernel

/-- C30 fails for a key that is set and then removed in the list: the set value survives. -/
theorem C30_violation_removed :
    lookup (ObjB.setItems (· != 0) [([97], 1)] [([97], 2), ([97], 0)]) [97] = some 2 := by decide +kernel

end Imt.Props
