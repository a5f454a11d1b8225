import Verif.Lemmas.ObjHeap
/-!
# C26: nothing a builder hands out or shares ever changes

`IWorld` is a world in which every value is an immutable list of members and every builder has containers of its own, so
sharing cannot matter there by construction. The theorem says that programs cannot tell the heap from it.
-/
namespace Imt.Props
open Imt Imt.Obj Imt.ObjB Imt.ObjHeap

variable {α : Type}

/-- One step in the world without sharing. -/
def istep (isDef : α → Bool) (undef : α) (p : PWorld α) : HOp α → PWorld α
  | .mkValue c => { p with vals := p.vals ++ [(c.items, c.diff)] }
  | .newB v => match p.vals[v]? with
    | some m => { p with builders := p.builders ++ [some (ObjB.ofBase m.1 m.2)] }
    | none => p
  | .set i k v => p.act i (fun b => (ObjB.set isDef b k v, []))
  | .read i k => p.act i (fun b => (match ObjB.get isDef undef b k with | .ok r => r.2 | _ => b, []))
  | .commit i => p.act i (fun b => ((ObjB.commit isDef b).2, [((ObjB.commit isDef b).1, b.baseDiff)]))
  | .commitAsDiff i => p.act i (fun b => ((ObjB.commitAsDiff isDef b).2,
      [((ObjB.commitAsDiff isDef b).1, (ObjB.commitAsDiff isDef b).2.ordered.isSome)]))
  | .iterate i => p.act i (fun b => ((ObjB.iterate isDef b).2, []))
  | .clear i => p.act i (fun b => (ObjB.clear b, []))
  | .revert i => p.act i (fun b => (ObjB.revert b, []))
  | .setBase i v => match p.vals[v]? with
    | some m => p.act i (fun b => (ObjB.setBase b m.1 m.2, []))
    | none => p
  | .merge i v => match p.vals[v]? with
    | some m => p.act i (fun b => (ObjB.merge isDef b m.1, []))
    | none => p
  | .copy i => match p.builders[i]? with
    | some (some b) => { p with builders := p.builders.set i (some (ObjB.copy isDef b).2) ++ [some (ObjB.copy isDef b).1] }
    | _ => p
  | .assign i j => if i = j then p else
      match p.builders[i]?, p.builders[j]? with
      | some (some t), some (some s) =>
        { p with builders := (p.builders.set j (some (ObjB.assign isDef t s).2)).set i (some (ObjB.assign isDef t s).1) }
      | _, _ => p
  | .move i => match p.builders[i]? with
    | some (some b) => { p with builders := p.builders.set i none ++ [some { b with snap := none }] }
    | _ => p
  | .moveAssign i j => if i = j then p else
      match p.builders[i]?, p.builders[j]? with
      | some (some t), some (some s) => { p with builders := (p.builders.set j none).set i (some { s with snap := t.snap }) }
      | _, _ => p

/-- A program in the world without sharing. -/
def irun (isDef : α → Bool) (undef : α) : List (HOp α) → PWorld α → PWorld α
  | [], p => p
  | op :: ops, p => irun isDef undef ops (istep isDef undef p op)

theorem wf_init : WF (init : World α) := by
  refine ⟨?_, ⟨?_, rfl, rfl⟩, ?_, ?_, ?_⟩ <;> simp [init]

theorem vals_get (w : World α) (v : Nat) :
    (abs w).vals[v]? = (w.vals[v]?).map (fun v => ((w.heap.cells v).items, (w.heap.cells v).diff)) := by
  simp [abs, absV]

theorem act_ext (p : PWorld α) (i : Nat) (f g : OB α → OB α × List (Members α × Bool))
    (h : ∀ b, p.builders[i]? = some (some b) → f b = g b) : p.act i f = p.act i g := by
  unfold PWorld.act
  cases hb : p.builders[i]? with
  | none => rfl
  | some o =>
    cases o with
    | none => rfl
    | some b => simp only [h b hb]

theorem readPrep_ok (isDef : α → Bool) (undef : α) (h : Heap α) (b : HB) (k : Bytes) (w : LW h b) :
    Frame h (readPrep isDef h b).1 b (readPrep isDef h b).2 ∧ LW (readPrep isDef h b).1 (readPrep isDef h b).2 ∧
    (readPrep isDef h b).2.base = b.base ∧ (readPrep isDef h b).2.snap = b.snap ∧
    view (readPrep isDef h b).1 (readPrep isDef h b).2 =
      (match ObjB.get isDef undef (view h b) k with | .ok r => r.2 | _ => view h b) := by
  obtain ⟨f, l, e1, e2, _, ev⟩ := optimize_ok isDef h b w
  have post : ∀ (r : OB α × Members α),
      (match (show Res (α × OB α) from match findLast r.2 k with
        | some v => pure (v, r.1)
        | none =>
          match r.1.ordered with
          | none => pure ((Obj.member r.1.base k).getD undef, r.1)
          | some o =>
            match (Obj.findSorted o k 0 o.length).map (·.2) with
            | some v => pure (v, r.1)
            | none => pure ((Obj.member r.1.base k).getD undef, r.1)) with
        | .ok q => q.2 | _ => view h b) = r.1 := by
    intro r
    cases findLast r.2 k with
    | some v => rfl
    | none =>
      cases r.1.ordered with
      | none => rfl
      | some o =>
        cases hx : (Obj.findSorted o k 0 o.length).map (·.2) with
        | none => simp only [hx]; rfl
        | some v => simp only [hx]; rfl
  cases hu : b.unordered with
  | none =>
    have e : readPrep isDef h b = (h, b) := by simp [readPrep, hu]
    rw [e]
    refine ⟨Frame.refl _ _, w, rfl, rfl, ?_⟩
    have : (view h b).unordered = none := by simp [view, hu]
    simp only [ObjB.get, this]
  | some u =>
    have vu : (view h b).unordered = some ⟨(h.cells u).cap, (h.cells u).items⟩ := by simp [view, hu]
    cases ho : b.ordered with
    | none =>
      have e : readPrep isDef h b = (h, b) := by simp [readPrep, hu, ho]
      rw [e]
      refine ⟨Frame.refl _ _, w, rfl, rfl, ?_⟩
      have vo : (view h b).ordered = none := by simp [view, ho]
      simp only [ObjB.get, vu, getPrep, vo]
      by_cases h16 : (h.cells u).items.length > 16
      · simp only [if_pos h16]
        rfl
      · simp only [if_neg h16, Res.bind_ok]
        exact (post (view h b, (h.cells u).items)).symm
    | some o =>
      have vo : (view h b).ordered = some (h.cells o).items := by simp [view, ho]
      simp only [ObjB.get, vu, getPrep, vo]
      by_cases h16 : (h.cells u).items.length > 16
      · simp only [if_pos h16, Res.bind_ok]
        by_cases h2 : (h.cells u).items.length > (h.cells o).items.length / 2
        · have e : readPrep isDef h b = optimize isDef h b := by
            simp only [readPrep, hu, ho]; exact if_pos ⟨h16, h2⟩
          rw [e]
          refine ⟨f, l, e1, e2, ?_⟩
          rw [if_pos h2, ev]
          exact (post (ObjB.optimize isDef (view h b), [])).symm
        · have e : readPrep isDef h b = (h, b) := by
            simp only [readPrep, hu, ho]; exact if_neg (fun x => h2 x.2)
          rw [e]
          refine ⟨Frame.refl _ _, w, rfl, rfl, ?_⟩
          rw [if_neg h2]
          exact (post (view h b, (h.cells u).items)).symm
      · have e : readPrep isDef h b = (h, b) := by
          simp only [readPrep, hu, ho]; exact if_neg (fun x => h16 x.1)
        rw [e]
        refine ⟨Frame.refl _ _, w, rfl, rfl, ?_⟩
        simp only [if_neg h16, Res.bind_ok]
        exact (post (view h b, (h.cells u).items)).symm

theorem copy_ok {w : World α} (W : WF w) (isDef : α → Bool) (i j : Nat) (b : HB) (sn : Option Nat)
    (put : List (Option HB) → HB → List (Option HB)) (iput : List (Option (OB α)) → OB α → List (Option (OB α)))
    (hb : w.builders[j]? = some (some b)) (hij : i ≠ j)
    (hput : ∀ B n, B.length = w.builders.length → Slot B (put B n) i { n with snap := sn })
    (hsn : ∀ s, sn = some s → ∃ c : HB, w.builders[i]? = some (some c) ∧ c.snap = some s)
    (hip : ∀ (B : List (Option HB)) (h h' : Heap α) (n : HB), B.length = w.builders.length →
      (∀ (k : Nat) (c : HB), k ≠ i → B[k]? = some (some c) → view h' c = view h c) →
      absB h' (put B n) = iput (absB h B) (view h' { n with snap := sn })) :
    WF (w.dup isDef j put) ∧ (∀ v ∈ w.vals, (w.dup isDef j put).heap.cells v = w.heap.cells v) ∧
    abs (w.dup isDef j put) = ⟨iput ((abs w).builders.set j (some (ObjB.copy isDef (view w.heap b)).2))
      { (ObjB.copy isDef (view w.heap b)).1 with snap := sn.map (fun s => (w.heap.cells s).items) }, (abs w).vals⟩ := by
  obtain ⟨lb, bb⟩ := W.each j b hb
  obtain ⟨f, l, e1, e2, e3, ev⟩ := optimize_ok isDef w.heap b lb
  generalize hr : optimize isDef w.heap b = r at *
  obtain ⟨h2, b2⟩ := r
  simp only at f l e1 e2 e3 ev
  have W2 : WF ({ heap := h2, builders := w.builders.set j (some b2), vals := w.vals ++ [] } : World α) :=
    act_wf W hb (slot_set _ _ _) f l (by rw [e1]; simpa using bb)
      (by intro s hs; rw [e2] at hs; exact .inr (.inl hs)) (by simp)
  simp only [List.append_nil] at W2
  have hkeep := vals_keep W f hb
  have hset2 : (w.builders.set j (some b2))[j]? = some (some b2) := by
    rw [List.getElem?_set]
    simp only [if_true]
    have : j < w.builders.length := by
      by_contra hc
      rw [List.getElem?_eq_none (by omega)] at hb; cases hb
    rw [if_pos this]
  have hsn2 : ∀ s, sn = some s → ∃ (k : Nat) (c : HB), (w.builders.set j (some b2))[k]? = some (some c) ∧ c.snap = some s := by
    intro s hs
    obtain ⟨c, hc, hcs⟩ := hsn s hs
    refine ⟨i, c, ?_, hcs⟩
    rw [List.getElem?_set, if_neg (fun e => hij e.symm)]
    exact hc
  have hsnl : ∀ s, sn = some s → s < w.heap.next := by
    intro s hs
    obtain ⟨c, hc, hcs⟩ := hsn s hs
    exact (W.each i c hc).1.snap s hcs
  have hsnv : ∀ s, sn = some s → h2.cells s = w.heap.cells s := by
    intro s hs
    obtain ⟨c, hc, hcs⟩ := hsn s hs
    exact f.keep s ((W.each i c hc).1.snap s hcs) (fun e => (W.sep j i b c s hb hc (fun e => hij e.symm) e).2.2 hcs)
  have habs2 : absB h2 (w.builders.set j (some b2)) = (absB w.heap w.builders).set j (some (ObjB.optimize isDef (view w.heap b))) := by
    rw [absB_set (fun k c hk hc => other_view W f hb hc hk), ← ev]; rfl
  have hnx := f.next
  have hcopy : ObjB.copy isDef (view w.heap b) =
      ({ base := (h2.cells b2.base).items, baseDiff := (h2.cells b2.base).diff,
         ordered := b2.ordered.map (fun o => (h2.cells o).items),
         unordered := b2.ordered.map (fun o => { cap := (h2.cells o).items.length, items := [] }) },
       view h2 b2) := by
    have hbk : h2.cells b2.base = w.heap.cells b.base := by
      rw [e1]; exact f.keep _ lb.base (fun e => (lb.un _ e).2.1 rfl)
    simp only [ObjB.copy, ObjB.commitAsDiff, ← ev, hbk]
    simp only [view, Option.map_map]
    rfl
  have hdup : w.dup isDef j put = { w with heap := (copy isDef w.heap b).2.1, builders := put (w.builders.set j (some (copy isDef w.heap b).2.2)) (copy isDef w.heap b).1 } := by
    simp only [World.dup, hb]
  rw [hdup, hcopy]
  cases ho : b2.ordered with
  | none =>
    have ec : copy isDef w.heap b = ({ base := b.base }, h2, b2) := by simp [ObjHeap.copy, hr, ho]
    rw [ec]
    simp only
    refine ⟨?_, hkeep, ?_⟩
    · refine fresh_wf W2 (i := i) (n := { base := b.base, snap := sn }) (hput _ _ (by simp)) (Nat.le_refl _) (fun _ _ => rfl) ?_ bb ?_ ?_ ?_
      · refine ⟨?_, fun o h => by simp at h, ?_, fun u h => by simp at h⟩
        · have := lb.base; show b.base < h2.next; omega
        · intro s hs; have := hsnl s hs; omega
      · exact hsn2
      · intro u hu; simp at hu
      · intro u hu; simp at hu
    · simp only [abs]
      rw [hip _ h2 h2 _ (by simp) (fun _ _ _ _ => rfl), habs2]
      congr 1
      · rw [← ev]
        congr 1
        simp only [view, Option.map_none, ← e1]
        congr 1
        cases sn with
        | none => rfl
        | some s => simp [hsnv s rfl]
      · exact absV_congr hkeep
  | some o =>
    have ec : copy isDef w.heap b = ({ base := b.base, ordered := some o, unordered := some h2.next },
        h2.alloc ⟨(h2.cells o).items.length, [], false⟩, b2) := by simp [ObjHeap.copy, hr, ho]
    rw [ec]
    simp only
    have hal : ∀ x, x < h2.next → (h2.alloc (⟨(h2.cells o).items.length, [], false⟩ : Cell α)).cells x = h2.cells x := by
      intro x hx
      have : x ≠ h2.next := by omega
      simp [this]
    obtain ⟨o1, o2⟩ := l.ord o ho
    refine ⟨?_, ?_, ?_⟩
    · refine fresh_wf W2 (i := i) (n := { base := b.base, ordered := some o, unordered := some h2.next, snap := sn }) (hput _ _ (by simp))
        (by simp) hal ?_ bb ?_ ?_ ?_
      · refine ⟨?_, ?_, ?_, ?_⟩
        · have := lb.base; show b.base < h2.next + 1; omega
        · intro o' h
          obtain rfl : o = o' := by simpa using h
          refine ⟨?_, by rw [hal o o1]; exact o2⟩
          show o < h2.next + 1
          omega
        · intro s hs; have := hsnl s hs; show s < h2.next + 1; omega
        · intro u h
          obtain rfl : h2.next = u := by simpa using h
          refine ⟨by show h2.next < h2.next + 1; omega, ?_, ?_, ?_⟩
          · have := lb.base; show h2.next ≠ b.base; omega
          · simp; omega
          · intro hs; have := hsnl _ hs; omega
      · exact hsn2
      · intro u h
        obtain rfl : h2.next = u := by simpa using h
        exact Nat.le_refl _
      · intro o' h
        obtain rfl : o = o' := by simpa using h
        exact ⟨j, b2, hset2, ho⟩
    · intro v hv
      rw [hal v (by have := W.vlt v hv; omega)]
      exact hkeep v hv
    · simp only [abs]
      rw [hip _ h2 _ _ (by simp) (fun k c _ hc => by
        have lc := (W2.each k c hc).1
        exact view_congr (hal _ lc.base) (fun o h => hal o (lc.ord o h).1) (fun o h => hal o (lc.un o h).1)
          (fun o h => hal o (lc.snap o h))), habs2]
      congr 1
      · rw [← ev]
        congr 1
        have hbl : b.base ≠ h2.next := by have := lb.base; omega
        have hol : o ≠ h2.next := by omega
        simp only [view, Option.map_some, ← e1, alloc_cells, if_true, hol, if_false]
        rw [e1]
        simp only [hbl, if_false]
        congr 1
        cases sn with
        | none => rfl
        | some s =>
          have : s ≠ h2.next := by have := hsnl s rfl; omega
          simp [this, hsnv s rfl]
      · refine absV_congr (fun v hv => ?_)
        rw [hal v (by have := W.vlt v hv; omega)]
        exact hkeep v hv

theorem away_ok {w : World α} (W : WF w) (i j : Nat) (b : HB) (sn : Option Nat)
    (put : List (Option HB) → HB → List (Option HB)) (iput : List (Option (OB α)) → OB α → List (Option (OB α)))
    (hb : w.builders[j]? = some (some b)) (hij : i ≠ j)
    (hput : ∀ B n, B.length = w.builders.length → Slot B (put B n) i { n with snap := sn })
    (hsn : ∀ s, sn = some s → ∃ c : HB, w.builders[i]? = some (some c) ∧ c.snap = some s)
    (hip : ∀ (B : List (Option HB)) (h : Heap α) (n : HB),
      absB h (put B n) = iput (absB h B) (view h { n with snap := sn })) :
    WF (w.away j put) ∧ (∀ v ∈ w.vals, (w.away j put).heap.cells v = w.heap.cells v) ∧
    abs (w.away j put) = ⟨iput ((abs w).builders.set j none)
      { view w.heap b with snap := sn.map (fun s => (w.heap.cells s).items) }, (abs w).vals⟩ := by
  have e : w.away j put = { w with builders := put (w.builders.set j none) b } := by simp only [World.away, hb]
  rw [e]
  refine ⟨?_, fun _ _ => rfl, ?_⟩
  · refine away_wf W hb (fun e => hij e.symm) (n := { b with snap := sn }) ?_ rfl rfl rfl ?_
    · intro k c hc
      rcases hput _ _ (by simp) k c hc with ⟨hk, hc⟩ | h
      · rw [List.getElem?_set] at hc
        by_cases hjk : j = k
        · rw [if_pos hjk] at hc
          split at hc <;> simp at hc
        · rw [if_neg hjk] at hc
          exact .inl ⟨hk, fun e => hjk e.symm, hc⟩
      · exact .inr h
    · intro s hs
      obtain ⟨c, hc, h⟩ := hsn s hs
      exact ⟨i, c, hc, h⟩
  · simp only [abs]
    rw [hip]
    congr 1
    congr 1
    simp [absB, List.map_set]

theorem act_vals (w : World α) (i : Nat) (f : HB → Heap α × HB × List Nat) : ∃ l, (w.act i f).vals = w.vals ++ l := by
  unfold World.act
  split
  · exact ⟨_, rfl⟩
  · exact ⟨[], by simp⟩

theorem dup_vals (isDef : α → Bool) (w : World α) (i : Nat) (put : List (Option HB) → HB → List (Option HB)) :
    ∃ l, (w.dup isDef i put).vals = w.vals ++ l := by
  unfold World.dup
  split <;> exact ⟨[], by simp⟩

theorem away_vals (w : World α) (i : Nat) (put : List (Option HB) → HB → List (Option HB)) :
    ∃ l, (w.away i put).vals = w.vals ++ l := by
  unfold World.away
  split <;> exact ⟨[], by simp⟩

theorem step_vals (isDef : α → Bool) (w : World α) (op : HOp α) : ∃ l, (step isDef w op).vals = w.vals ++ l := by
  have h0 : ∃ l, w.vals = w.vals ++ l := ⟨[], by simp⟩
  cases op with
  | mkValue c => exact ⟨_, rfl⟩
  | newB v => simp only [step]; split <;> exact h0
  | setBase i v => simp only [step]; split; exact act_vals _ _ _; exact h0
  | merge i v => simp only [step]; split; exact act_vals _ _ _; exact h0
  | copy i => exact dup_vals _ _ _ _
  | move i => exact away_vals _ _ _
  | assign i j =>
    simp only [step]
    split
    · exact h0
    · split
      · exact dup_vals _ _ _ _
      · exact h0
  | moveAssign i j =>
    simp only [step]
    split
    · exact h0
    · split
      · exact away_vals _ _ _
      · exact h0
  | _ => exact act_vals _ _ _

theorem step_ok (isDef : α → Bool) (undef : α) (w : World α) (W : WF w) (op : HOp α) :
    WF (step isDef w op) ∧ (∀ v ∈ w.vals, (step isDef w op).heap.cells v = w.heap.cells v) ∧
    abs (step isDef w op) = istep isDef undef (abs w) op := by
  have snap0 : ∀ {b b' : HB}, b'.snap = b.snap → ∀ s, b'.snap = some s → s ∈ w.vals ∨ b.snap = some s ∨ w.heap.next ≤ s := by
    intro b b' e s hs; rw [e] at hs; exact .inr (.inl hs)
  cases op with
  | mkValue c =>
    have hal : ∀ x, x < w.heap.next → (w.heap.alloc c).cells x = w.heap.cells x := by
      intro x hx
      have : x ≠ w.heap.next := by omega
      simp [this]
    have hv : ∀ v ∈ w.vals, (w.heap.alloc c).cells v = w.heap.cells v := fun v hv => hal v (W.vlt v hv)
    refine ⟨⟨?_, ⟨?_, ?_, ?_⟩, ?_, ?_, ?_⟩, hv, ?_⟩
    · intro v h
      rcases List.mem_append.1 h with h | h
      · have := W.vlt v h; show v < w.heap.next + 1; omega
      · obtain rfl : v = w.heap.next := by simpa using h
        show w.heap.next < w.heap.next + 1; omega
    · exact List.mem_append_left _ W.zero.1
    · show ((w.heap.alloc c).cells 0).items = []; rw [hv 0 W.zero.1]; exact W.zero.2.1
    · show ((w.heap.alloc c).cells 0).diff = false; rw [hv 0 W.zero.1]; exact W.zero.2.2
    · intro i b hb
      obtain ⟨lb, bb⟩ := W.each i b hb
      exact ⟨(alloc_ok _ _ c lb).1, List.mem_append_left _ bb⟩
    · intro i b u hb hu hm
      rcases List.mem_append.1 hm with h | h
      · exact W.own i b u hb hu h
      · obtain rfl : u = w.heap.next := by simpa using h
        have := ((W.each i b hb).1.un _ hu).1
        omega
    · exact W.sep
    · show PWorld.mk (absB (w.heap.alloc c) w.builders) (absV (w.heap.alloc c) (w.vals ++ [w.heap.next])) = _
      rw [absB_congr (fun k b hb => (alloc_ok _ _ c (W.each k b hb).1).2)]
      simp only [absV, List.map_append, istep, abs]
      congr 2
      · exact absV_congr hv
      · simp
  | newB v =>
    simp only [step, istep, vals_get]
    cases hv : w.vals[v]? with
    | none => exact ⟨W, fun _ _ => rfl, rfl⟩
    | some id =>
      have hm : id ∈ w.vals := List.mem_of_getElem? hv
      simp only [Option.map_some]
      refine ⟨fresh_wf W (slot_append _ _) (Nat.le_refl _) (fun _ _ => rfl) ⟨W.vlt _ hm, ?_, ?_, ?_⟩ hm ?_ ?_ ?_, fun _ _ => by trivial, ?_⟩
      · intro o h; simp at h
      · intro o h; simp at h
      · intro o h; simp at h
      · intro o h; simp at h
      · intro o h; simp at h
      · intro o h; simp at h
      · simp [abs, absB, view, ofBase]
  | set i k v =>
    refine act_refines W i _ _ (fun b hb => ?_)
    obtain ⟨lb, bb⟩ := W.each i b hb
    obtain ⟨f, l, e1, e2, ev⟩ := setInternal_ok isDef w.heap b (k, v) lb
    refine ⟨f, l, by rw [e1]; simpa using bb, ?_, by simp, ev, rfl⟩
    intro s hs
    rw [e2] at hs; cases hs
  | read i k =>
    refine act_refines W i _ _ (fun b hb => ?_)
    obtain ⟨lb, bb⟩ := W.each i b hb
    obtain ⟨f, l, e1, e2, ev⟩ := readPrep_ok isDef undef w.heap b k lb
    exact ⟨f, l, by rw [e1]; simpa using bb, snap0 e2, by simp, ev, rfl⟩
  | commit i =>
    refine act_refines W i _ _ (fun b hb => ?_)
    obtain ⟨lb, bb⟩ := W.each i b hb
    obtain ⟨f, l, e1, e2, e3, ev, ei, ed, hh, hu⟩ := commit_ok isDef w.heap b lb
    refine ⟨f, l, by rw [e1]; exact List.mem_append_left _ bb, snap0 e2, ?_, ev, ?_⟩
    · intro v hv
      obtain rfl : v = (ObjHeap.commit isDef w.heap b).1 := by simpa using hv
      refine ⟨hh.lt, ?_⟩
      have hh' := hh.from'
      by_cases h1 : (ObjHeap.commit isDef w.heap b).1 ∈ w.vals
      · exact .inl h1
      · rcases hh' with h | h | h | h | h
        · exact absurd (by rw [h]; exact bb) h1
        · exact .inr (.inl h)
        · exact absurd (by rw [h]; exact W.zero.1) h1
        · by_cases h2 : (ObjHeap.commit isDef w.heap b).1 < w.heap.next
          · -- a result that existed before is the base
            simp only [ObjHeap.commit] at h1 h2
            exfalso
            generalize hr : ObjHeap.optimize isDef w.heap b = r at *
            obtain ⟨f', _, e1', _, _, _⟩ := optimize_ok isDef w.heap b lb
            rw [hr] at f' e1'
            cases ho : r.2.ordered with
            | none => simp only [ho] at h1; exact h1 (by rw [e1']; exact bb)
            | some o => simp only [ho] at h2; have := f'.next; omega
          · exact .inr (.inr ⟨by omega, by simp only [e3]; exact hu⟩)
        · exact .inr (.inr h)
    · simp only [absV, List.map_cons, List.map_nil, ei, ed]
  | commitAsDiff i =>
    refine act_refines W i _ _ (fun b hb => ?_)
    obtain ⟨lb, bb⟩ := W.each i b hb
    obtain ⟨f, l, e1, e2, e3, ev⟩ := optimize_ok isDef w.heap b lb
    refine ⟨f, l, ?_, snap0 e2, ?_, ev, ?_⟩
    · show (ObjHeap.optimize isDef w.heap b).2.base ∈ _
      rw [e1]; exact List.mem_append_left _ bb
    · intro v hv
      simp only [ObjHeap.commitAsDiff, List.mem_singleton] at hv ⊢
      cases ho : (ObjHeap.optimize isDef w.heap b).2.ordered with
      | none =>
        simp only [ho, Option.getD_none] at hv
        subst hv
        refine ⟨?_, .inl W.zero.1⟩
        have := W.vlt 0 W.zero.1
        have := f.next
        omega
      | some o =>
        simp only [ho, Option.getD_some] at hv
        subst hv
        exact ⟨(l.ord v ho).1, .inr (.inl rfl)⟩
    · have hz : (ObjHeap.optimize isDef w.heap b).1.cells 0 = w.heap.cells 0 := vals_keep W f hb 0 W.zero.1
      simp only [ObjHeap.commitAsDiff, ObjB.commitAsDiff, ← ev, absV, List.map_cons, List.map_nil]
      cases ho : (ObjHeap.optimize isDef w.heap b).2.ordered with
      | none => simp [view, ho, hz, W.zero.2.1, W.zero.2.2]
      | some o => simp [view, ho, (l.ord o ho).2]
  | iterate i =>
    refine act_refines W i _ _ (fun b hb => ?_)
    obtain ⟨lb, bb⟩ := W.each i b hb
    obtain ⟨f, l, e1, e2, ev, ei, hh⟩ := iterate_ok isDef w.heap b lb
    refine ⟨f, l, by rw [e1]; simpa using bb, ?_, by simp, ev, rfl⟩
    intro s hs
    by_cases hsn : b.snap = some s
    · exact .inr (.inl hsn)
    · have he : (ObjHeap.iterate isDef w.heap b).1 = s := by
        have := e2.symm.trans hs; simpa using this
      simp only [ObjHeap.iterate] at he
      cases hsb : b.snap with
      | some s' => simp only [hsb] at he; subst he; exact absurd hsb hsn
      | none =>
        simp only [hsb, ObjHeap.commit] at he
        obtain ⟨f', _, e1', _, _, _⟩ := optimize_ok isDef w.heap b lb
        cases ho : (ObjHeap.optimize isDef w.heap b).2.ordered with
        | none => simp only [ho] at he; refine .inl ?_; rw [← he, e1']; exact bb
        | some o => simp only [ho] at he; have := f'.next; exact .inr (.inr (by omega))
  | clear i =>
    refine act_refines W i _ _ (fun b hb => ?_)
    obtain ⟨lb, bb⟩ := W.each i b hb
    refine ⟨⟨Nat.le_refl _, fun _ _ _ => rfl, by simp, by simp⟩, ⟨W.vlt 0 W.zero.1, by simp, lb.snap, by simp⟩,
      List.mem_append_left _ W.zero.1, fun s hs => .inr (.inl hs), by simp, ?_, rfl⟩
    simp [view, ObjB.clear, ObjB.revert, W.zero.2.1, W.zero.2.2]
  | revert i =>
    refine act_refines W i _ _ (fun b hb => ?_)
    obtain ⟨lb, bb⟩ := W.each i b hb
    exact ⟨⟨Nat.le_refl _, fun _ _ _ => rfl, by simp, by simp⟩, ⟨lb.base, by simp, lb.snap, by simp⟩,
      List.mem_append_left _ bb, fun s hs => .inr (.inl hs), by simp, rfl, rfl⟩
  | setBase i v =>
    simp only [step, istep, vals_get]
    cases hv : w.vals[v]? with
    | none => exact ⟨W, fun _ _ => rfl, rfl⟩
    | some id =>
      have hm : id ∈ w.vals := List.mem_of_getElem? hv
      refine act_refines W i _ _ (fun b hb => ?_)
      obtain ⟨lb, bb⟩ := W.each i b hb
      refine ⟨⟨Nat.le_refl _, fun _ _ _ => rfl, fun _ e => .inl e, fun _ e => .inl e⟩, ⟨W.vlt _ hm, lb.ord, lb.snap, ?_⟩,
        List.mem_append_left _ hm, fun s hs => .inr (.inl hs), by simp, rfl, rfl⟩
      intro u hu
      obtain ⟨a, _, c, d⟩ := lb.un u hu
      exact ⟨a, fun e => W.own i b u hb hu (by rw [e]; exact hm), c, d⟩
  | merge i v =>
    simp only [step, istep, vals_get]
    cases hv : w.vals[v]? with
    | none => exact ⟨W, fun _ _ => rfl, rfl⟩
    | some id =>
      have hm : id ∈ w.vals := List.mem_of_getElem? hv
      refine act_refines W i _ _ (fun b hb => ?_)
      obtain ⟨lb, bb⟩ := W.each i b hb
      obtain ⟨f, l, e1, e2, ev⟩ := mergeLoop_ok isDef id (w.heap.cells id).items.length 0 w.heap b lb (W.vlt _ hm)
        (fun e => W.own i b id hb e hm) (by omega)
      refine ⟨f, l, by rw [e1]; simpa using bb, ?_, by simp, ?_, rfl⟩
      · rcases e2 with h | h
        · exact snap0 h
        · intro s hs
          simp only at hs
          rw [h] at hs; cases hs
      · simpa using ev
  | copy i =>
    simp only [step, istep, abs_get]
    cases hb : w.builders[i]? with
    | none =>
      have e : w.dup isDef i (fun bs n => bs ++ [some { n with snap := none }]) = w := by simp only [World.dup, hb]
      rw [e]; exact ⟨W, fun _ _ => rfl, rfl⟩
    | some o =>
      cases o with
      | none =>
        have e : w.dup isDef i (fun bs n => bs ++ [some { n with snap := none }]) = w := by simp only [World.dup, hb]
        rw [e]; exact ⟨W, fun _ _ => rfl, rfl⟩
      | some b =>
        have hi : i < w.builders.length := by
          by_contra hc
          rw [List.getElem?_eq_none (by omega)] at hb; cases hb
        have := copy_ok W isDef w.builders.length i b none (fun bs n => bs ++ [some { n with snap := none }])
          (fun bs n => bs ++ [some n]) hb (by omega)
          (fun B n hl => by rw [← hl]; exact slot_append _ _) (by simp)
          (fun B h h' n hl H => by
            simp only [absB, List.map_append, List.map_cons, List.map_nil, Option.map_some]
            congr 1
            exact absB_congr (fun k c hc => H k c (by
              intro e
              rw [List.getElem?_eq_none (by omega)] at hc; cases hc) hc))
        refine ⟨this.1, this.2.1, ?_⟩
        rw [this.2.2]
        simp only [Option.map_some, Option.map_none]
        rfl
  | assign i j =>
    simp only [step, istep, abs_get]
    by_cases hij : i = j
    · simp only [if_pos hij]; exact ⟨W, fun _ _ => by trivial, by trivial⟩
    · simp only [if_neg hij]
      cases hi : w.builders[i]? with
      | none => exact ⟨W, fun _ _ => rfl, rfl⟩
      | some o =>
        cases o with
        | none => exact ⟨W, fun _ _ => rfl, rfl⟩
        | some t =>
          simp only [Option.map_some]
          cases hb : w.builders[j]? with
          | none =>
            have e : w.dup isDef j (fun bs n => bs.set i (some { n with snap := t.snap })) = w := by simp only [World.dup, hb]
            rw [e]; exact ⟨W, fun _ _ => rfl, rfl⟩
          | some o =>
            cases o with
            | none =>
              have e : w.dup isDef j (fun bs n => bs.set i (some { n with snap := t.snap })) = w := by simp only [World.dup, hb]
              rw [e]; exact ⟨W, fun _ _ => rfl, rfl⟩
            | some b =>
              have := copy_ok W isDef i j b t.snap (fun bs n => bs.set i (some { n with snap := t.snap }))
                (fun bs n => bs.set i (some n)) hb hij
                (fun B n hl => slot_set _ _ _) (fun s hs => ⟨t, hi, hs⟩)
                (fun B h h' n hl H => by rw [absB_set H]; rfl)
              refine ⟨this.1, this.2.1, ?_⟩
              rw [this.2.2]
              simp only [Option.map_some]
              rfl
  | move i =>
    simp only [step, istep, abs_get]
    cases hb : w.builders[i]? with
    | none =>
      have e : w.away i (fun bs n => bs ++ [some { n with snap := none }]) = w := by simp only [World.away, hb]
      rw [e]; exact ⟨W, fun _ _ => rfl, rfl⟩
    | some o =>
      cases o with
      | none =>
        have e : w.away i (fun bs n => bs ++ [some { n with snap := none }]) = w := by simp only [World.away, hb]
        rw [e]; exact ⟨W, fun _ _ => rfl, rfl⟩
      | some b =>
        have hi : i < w.builders.length := by
          by_contra hc
          rw [List.getElem?_eq_none (by omega)] at hb; cases hb
        have := away_ok W w.builders.length i b none (fun bs n => bs ++ [some { n with snap := none }])
          (fun bs n => bs ++ [some n]) hb (by omega)
          (fun B n hl => by rw [← hl]; exact slot_append _ _) (by simp)
          (fun B h n => by simp [absB])
        refine ⟨this.1, this.2.1, ?_⟩
        rw [this.2.2]
        simp only [Option.map_some, Option.map_none]
  | moveAssign i j =>
    simp only [step, istep, abs_get]
    by_cases hij : i = j
    · simp only [if_pos hij]; exact ⟨W, fun _ _ => by trivial, by trivial⟩
    · simp only [if_neg hij]
      cases hi : w.builders[i]? with
      | none => exact ⟨W, fun _ _ => rfl, rfl⟩
      | some o =>
        cases o with
        | none => exact ⟨W, fun _ _ => rfl, rfl⟩
        | some t =>
          simp only [Option.map_some]
          cases hb : w.builders[j]? with
          | none =>
            have e : w.away j (fun bs n => bs.set i (some { n with snap := t.snap })) = w := by simp only [World.away, hb]
            rw [e]; exact ⟨W, fun _ _ => rfl, rfl⟩
          | some o =>
            cases o with
            | none =>
              have e : w.away j (fun bs n => bs.set i (some { n with snap := t.snap })) = w := by simp only [World.away, hb]
              rw [e]; exact ⟨W, fun _ _ => rfl, rfl⟩
            | some b =>
              have := away_ok W i j b t.snap (fun bs n => bs.set i (some { n with snap := t.snap }))
                (fun bs n => bs.set i (some n)) hb hij
                (fun B n hl => slot_set _ _ _) (fun s hs => ⟨t, hi, hs⟩)
                (fun B h n => by rw [absB_set (fun _ _ _ _ => rfl)]; rfl)
              refine ⟨this.1, this.2.1, ?_⟩
              rw [this.2.2]
              simp only [Option.map_some]
              rfl

theorem run_ok (isDef : α → Bool) (undef : α) : ∀ (ops : List (HOp α)) (w : World α), WF w →
    WF (run isDef ops w) ∧ (∀ v ∈ w.vals, (run isDef ops w).heap.cells v = w.heap.cells v) ∧
    (∃ l, (run isDef ops w).vals = w.vals ++ l) ∧ abs (run isDef ops w) = irun isDef undef ops (abs w)
  | [], w, W => ⟨W, fun _ _ => rfl, ⟨[], by simp [run]⟩, rfl⟩
  | op :: ops, w, W => by
    obtain ⟨a, b, c⟩ := step_ok isDef undef w W op
    obtain ⟨l, hl⟩ := step_vals isDef w op
    obtain ⟨a', b', ⟨l', hl'⟩, c'⟩ := run_ok isDef undef ops _ a
    refine ⟨a', fun v hv => ?_, ⟨l ++ l', ?_⟩, ?_⟩
    · rw [run, b' v (by rw [hl]; exact List.mem_append_left _ hv), b v hv]
    · rw [run, hl', hl, List.append_assoc]
    · rw [run, c', c]; rfl

/-- C26: whatever a program did (`before`) and whatever it does next (`after`) with any number of builders, a value it
held in between (results of `commit` and `commitAsDiff`, bases, values from elsewhere) keeps its place and its members. -/
theorem C26_values (isDef : α → Bool) (undef : α) (before after : List (HOp α)) (n v : Nat)
    (hv : (run isDef before init).vals[n]? = some v) :
    (run isDef after (run isDef before init)).vals[n]? = some v ∧
    (run isDef after (run isDef before init)).heap.cells v = (run isDef before init).heap.cells v := by
  obtain ⟨W, _⟩ := run_ok isDef undef before init wf_init
  obtain ⟨_, h, ⟨l, hl⟩, _⟩ := run_ok isDef undef after _ W
  refine ⟨?_, h v (List.mem_of_getElem? hv)⟩
  rw [hl, List.getElem?_append_left, hv]
  by_contra hc
  rw [List.getElem?_eq_none (by omega)] at hv; cases hv

/-- C26, in full: sharing cannot be noticed. Running any program on the heap gives the same builders (contents, recorded
changes, snapshots) and the same values as running it in the world where nothing is shared. -/
theorem C26_no_sharing (isDef : α → Bool) (undef : α) (ops : List (HOp α)) :
    abs (run isDef ops init) = irun isDef undef ops ⟨[], [([], false)]⟩ :=
  (run_ok isDef undef ops init wf_init).2.2.2

/-- The builders an operation is applied to. -/
def touched : HOp α → List Nat
  | .mkValue _ => [] | .newB _ => [] | .set i _ _ => [i] | .read i _ => [i] | .commit i => [i] | .commitAsDiff i => [i]
  | .iterate i => [i] | .clear i => [i] | .revert i => [i] | .setBase i _ => [i] | .merge i _ => [i] | .copy i => [i]
  | .assign i j => [i, j] | .move i => [i] | .moveAssign i j => [i, j]

theorem act_other (p : PWorld α) (i k : Nat) (f : OB α → OB α × List (Members α × Bool)) (h : k ≠ i) :
    (p.act i f).builders[k]? = p.builders[k]? := by
  unfold PWorld.act
  split
  · rw [List.getElem?_set, if_neg (fun e => h e.symm)]
  · rfl

/-- C26: a builder is only changed by operations on it – not by those on its copies, on builders over the same base, or
on the builder it was copied from. -/
theorem C26_builders (isDef : α → Bool) (undef : α) (before : List (HOp α)) (op : HOp α) (k : Nat) (b : OB α)
    (hk : (abs (run isDef before init)).builders[k]? = some (some b)) (ht : k ∉ touched op) :
    (abs (step isDef (run isDef before init) op)).builders[k]? = some (some b) := by
  obtain ⟨W, _⟩ := run_ok isDef undef before init wf_init
  rw [(step_ok isDef undef _ W op).2.2, ← hk]
  generalize abs (run isDef before init) = p at *
  have hl : k < p.builders.length := by
    by_contra hc
    rw [List.getElem?_eq_none (by omega)] at hk; cases hk
  cases op <;> simp only [touched, List.mem_cons, List.not_mem_nil, or_false, not_or] at ht <;> simp only [istep]
  case newB v =>
    split
    · exact List.getElem?_append_left hl
    · rfl
  case setBase i v => split <;> first | exact act_other _ _ _ _ ht | rfl
  case merge i v => split <;> first | exact act_other _ _ _ _ ht | rfl
  case copy i =>
    split
    · rw [List.getElem?_append_left (by simpa using hl), List.getElem?_set, if_neg (fun e => ht e.symm)]
    · rfl
  case move i =>
    split
    · rw [List.getElem?_append_left (by simpa using hl), List.getElem?_set, if_neg (fun e => ht e.symm)]
    · rfl
  case assign i j =>
    split
    · rfl
    · split
      · rw [List.getElem?_set, if_neg (fun e => ht.1 e.symm), List.getElem?_set, if_neg (fun e => ht.2 e.symm)]
      · rfl
  case moveAssign i j =>
    split
    · rfl
    · split
      · rw [List.getElem?_set, if_neg (fun e => ht.1 e.symm), List.getElem?_set, if_neg (fun e => ht.2 e.symm)]
      · rfl
  all_goals exact act_other _ _ _ _ ht

/-- A program with sharing: the diff handed out and the copy share the ordered cell, then both builders go on. -/
def demo : List (HOp (Option Nat)) :=
  [.mkValue ⟨2, [([97], some 1)], false⟩, .newB 1, .set 0 [98] (some 2), .commitAsDiff 0, .copy 0, .set 0 [98] (some 3),
   .set 1 [97] none, .commit 0, .commit 1]

example : (run Option.isSome demo init).vals = [0, 1, 3, 6, 8] ∧
    ((run Option.isSome demo init).heap.cells 3).items = [([98], some 2)] ∧
    ((run Option.isSome demo init).heap.cells 6).items = [([97], some 1), ([98], some 3)] ∧
    ((run Option.isSome demo init).heap.cells 8).items = [([98], some 2)] := by decide +kernel

example : (abs (run Option.isSome demo init)).builders.length = 2 := by decide +kernel

end Imt.Props
