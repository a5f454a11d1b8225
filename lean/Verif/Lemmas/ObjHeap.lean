import Verif.Model.ObjHeap
import Mathlib.Tactic.ByContra
/-!
# Heap builders behave as builders with containers of their own
-/
namespace Imt.ObjHeap
open Imt Imt.Obj Imt.ObjB

variable {α : Type}

/-- A builder is well formed: its cells exist, ordered is a diff, and the cell it writes is no other cell it uses. -/
structure LW (h : Heap α) (b : HB) : Prop where
  base : b.base < h.next
  ord : ∀ o, b.ordered = some o → o < h.next ∧ (h.cells o).diff = true
  snap : ∀ s, b.snap = some s → s < h.next
  un : ∀ u, b.unordered = some u → u < h.next ∧ u ≠ b.base ∧ b.ordered ≠ some u ∧ b.snap ≠ some u

/-- An operation of a builder writes only its unordered cell and new cells. -/
structure Frame (h h' : Heap α) (b b' : HB) : Prop where
  next : h.next ≤ h'.next
  keep : ∀ x, x < h.next → b.unordered ≠ some x → h'.cells x = h.cells x
  un : ∀ u, b'.unordered = some u → b.unordered = some u ∨ (h.next ≤ u ∧ u < h'.next)
  ord : ∀ o, b'.ordered = some o → b.ordered = some o ∨ (h.next ≤ o ∧ o < h'.next)

theorem Frame.refl (h : Heap α) (b : HB) : Frame h h b b := ⟨Nat.le_refl _, fun _ _ _ => rfl, fun _ e => .inl e, fun _ e => .inl e⟩

theorem Frame.trans {h h' h'' : Heap α} {b b' b'' : HB} (f : Frame h h' b b') (g : Frame h' h'' b' b'') :
    Frame h h'' b b'' := by
  have hn := f.next
  have hm := g.next
  refine ⟨Nat.le_trans hn hm, fun x hx hu => ?_, fun u e => ?_, fun o e => ?_⟩
  · rw [g.keep x (by omega) ?_, f.keep x hx hu]
    intro e
    rcases f.un x e with h1 | h1
    · exact hu h1
    · omega
  · rcases g.un u e with h1 | h1
    · rcases f.un u h1 with h2 | h2
      · exact .inl h2
      · exact .inr (by omega)
    · exact .inr (by omega)
  · rcases g.ord o e with h1 | h1
    · rcases f.ord o h1 with h2 | h2
      · exact .inl h2
      · exact .inr (by omega)
    · exact .inr (by omega)

@[simp] theorem put_next (h : Heap α) (i : Nat) (c : Cell α) : (h.put i c).next = h.next := rfl
@[simp] theorem put_cells (h : Heap α) (i : Nat) (c : Cell α) (x : Nat) :
    (h.put i c).cells x = if x = i then c else h.cells x := rfl
@[simp] theorem alloc_next (h : Heap α) (c : Cell α) : (h.alloc c).next = h.next + 1 := rfl
@[simp] theorem alloc_cells (h : Heap α) (c : Cell α) (x : Nat) :
    (h.alloc c).cells x = if x = h.next then c else h.cells x := rfl

/-- A view does not depend on cells the builder does not use. -/
theorem view_congr {h h' : Heap α} {b : HB} (h0 : h'.cells b.base = h.cells b.base)
    (h1 : ∀ o, b.ordered = some o → h'.cells o = h.cells o) (h2 : ∀ o, b.unordered = some o → h'.cells o = h.cells o)
    (h3 : ∀ o, b.snap = some o → h'.cells o = h.cells o) : view h' b = view h b := by
  obtain ⟨bb, bo, bu, bs⟩ := b
  simp only at h0 h1 h2 h3
  unfold view
  simp only [h0]
  congr 1
  · cases bo <;> simp_all
  · cases bu <;> simp_all
  · cases bs <;> simp_all

theorem optimize_ok (isDef : α → Bool) (h : Heap α) (b : HB) (w : LW h b) :
    Frame h (optimize isDef h b).1 b (optimize isDef h b).2 ∧ LW (optimize isDef h b).1 (optimize isDef h b).2 ∧
    (optimize isDef h b).2.base = b.base ∧ (optimize isDef h b).2.snap = b.snap ∧
    (optimize isDef h b).2.unordered = b.unordered ∧
    view (optimize isDef h b).1 (optimize isDef h b).2 = ObjB.optimize isDef (view h b) := by
  obtain ⟨bb, bo, bu, bs⟩ := b
  obtain ⟨w1, w2, w3, w4⟩ := w
  simp only at w1 w2 w3 w4
  cases bu with
  | none =>
    exact ⟨Frame.refl _ _, ⟨w1, w2, w3, by simp [optimize]⟩, rfl, rfl, rfl, rfl⟩
  | some u =>
    obtain ⟨u1, u2, u3, u4⟩ := w4 u rfl
    by_cases hz : (h.cells u).items.length = 0
    · have e : optimize isDef h ⟨bb, bo, some u, bs⟩ = (h, ⟨bb, bo, some u, bs⟩) := by
        simp only [optimize]; exact if_pos hz
      rw [e]
      refine ⟨Frame.refl _ _, ⟨w1, w2, w3, w4⟩, rfl, rfl, rfl, ?_⟩
      simp only [view, ObjB.optimize, Option.map_some]
      exact (if_pos hz).symm
    · cases bo with
      | none =>
        have e : optimize isDef h ⟨bb, none, some u, bs⟩ =
            (((h.put u { h.cells u with items := Obj.sort (h.cells u).items }).alloc
                ⟨(Obj.sort (h.cells u).items).length, Obj.sort (h.cells u).items, true⟩).put u { h.cells u with items := [] },
              ⟨bb, some h.next, some u, bs⟩) := by
          simp only [optimize]
          refine Eq.trans (if_neg hz) ?_
          have : u ≠ h.next := by omega
          simp [this]
        rw [e]
        refine ⟨⟨by simp, ?_, ?_, ?_⟩, ⟨?_, ?_, ?_, ?_⟩, rfl, rfl, rfl, ?_⟩
        · intro x hx hu
          have a1 : x ≠ u := fun e => hu (by rw [e])
          have a2 : x ≠ h.next := by omega
          simp [a1, a2]
        · intro v hv; exact .inl hv
        · intro o ho
          obtain rfl : h.next = o := by simpa using ho
          exact .inr (by simp)
        · simp; omega
        · intro o ho
          obtain rfl : h.next = o := by simpa using ho
          have : h.next ≠ u := by omega
          simp [this]
        · intro s hs; have := w3 s hs; simp; omega
        · intro v hv
          obtain rfl : u = v := by simpa using hv
          refine ⟨by simp; omega, u2, ?_, u4⟩
          simp; omega
        · have a1 : h.next ≠ u := by omega
          have a2 : bb ≠ u := fun e => u2 e.symm
          have a3 : bb ≠ h.next := by omega
          have a4 : u ≠ h.next := by omega
          simp only [view, ObjB.optimize, Option.map_some, Option.map_none, put_cells, alloc_cells, put_next, a1, a2, a3, a4, if_true, if_false]
          refine Eq.trans ?_ (if_neg hz).symm
          congr 1
          cases bs with
          | none => rfl
          | some s =>
            have b1 : s ≠ u := fun e => u4 (by rw [e])
            have b2 : s ≠ h.next := by have := w3 s rfl; omega
            simp [b1, b2]
      | some o =>
        obtain ⟨o1, o2⟩ := w2 o rfl
        have ou : o ≠ u := fun e => u3 (by rw [e])
        have e : optimize isDef h ⟨bb, some o, some u, bs⟩ =
            (((h.put u { h.cells u with items := Obj.sort (h.cells u).items }).alloc
                ⟨(h.cells o).items.length + (Obj.sort (h.cells u).items).length,
                  applyDiffImpl isDef defaultMerge true (h.cells o).items (Obj.sort (h.cells u).items), true⟩).put u
                    { h.cells u with items := [] },
              ⟨bb, some h.next, some u, bs⟩) := by
          simp only [optimize]
          refine Eq.trans (if_neg hz) ?_
          have : u ≠ h.next := by omega
          simp [this, ou, o2]
        rw [e]
        refine ⟨⟨by simp, ?_, ?_, ?_⟩, ⟨?_, ?_, ?_, ?_⟩, rfl, rfl, rfl, ?_⟩
        · intro x hx hu
          have a1 : x ≠ u := fun e => hu (by rw [e])
          have a2 : x ≠ h.next := by omega
          simp [a1, a2]
        · intro v hv; exact .inl hv
        · intro o ho
          obtain rfl : h.next = o := by simpa using ho
          exact .inr (by simp)
        · simp; omega
        · intro o' ho
          obtain rfl : h.next = o' := by simpa using ho
          have : h.next ≠ u := by omega
          simp [this]
        · intro s hs; have := w3 s hs; simp; omega
        · intro v hv
          obtain rfl : u = v := by simpa using hv
          refine ⟨by simp; omega, u2, ?_, u4⟩
          simp; omega
        · have a1 : h.next ≠ u := by omega
          have a2 : bb ≠ u := fun e => u2 e.symm
          have a3 : bb ≠ h.next := by omega
          have a4 : u ≠ h.next := by omega
          simp only [view, ObjB.optimize, Option.map_some, Option.map_none, put_cells, alloc_cells, put_next, a1, a2, a3, a4, if_true, if_false]
          refine Eq.trans ?_ (if_neg hz).symm
          congr 1
          cases bs with
          | none => rfl
          | some s =>
            have b1 : s ≠ u := fun e => u4 (by rw [e])
            have b2 : s ≠ h.next := by have := w3 s rfl; omega
            simp [b1, b2]

/-- Allocation changes no existing view. -/
theorem alloc_ok (h : Heap α) (b : HB) (c : Cell α) (w : LW h b) :
    LW (h.alloc c) b ∧ view (h.alloc c) b = view h b := by
  have hc : ∀ x, x < h.next → (h.alloc c).cells x = h.cells x := by
    intro x hx
    have : x ≠ h.next := by omega
    simp [this]
  refine ⟨⟨?_, ?_, ?_, ?_⟩, ?_⟩
  · have := w.base; simp; omega
  · intro o ho
    obtain ⟨a, d⟩ := w.ord o ho
    rw [hc o a]; exact ⟨by simp; omega, d⟩
  · intro s hs; have := w.snap s hs; simp; omega
  · intro u hu
    obtain ⟨a, d⟩ := w.un u hu
    exact ⟨by simp; omega, d⟩
  · exact view_congr (hc _ w.base) (fun o ho => hc o (w.ord o ho).1) (fun u hu => hc u (w.un u hu).1)
      (fun s hs => hc s (w.snap s hs))

/-- The second half of `set_internal`: the unordered cell is there. -/
def setTail (isDef : α → Bool) (h : Heap α) (b : HB) (u : Nat) (m : Bytes × α) : Heap α × HB :=
  let c := h.cells u
  if c.items.length < c.cap then (h.put u { c with items := c.items ++ [m] }, b)
  else
    let n := h.next
    let h := h.alloc ⟨c.items.length * 2, [], false⟩
    let r := optimize isDef h b
    let h := r.1
    let c := h.cells n
    ((if c.items.length < c.cap then h.put n { c with items := c.items ++ [m] } else h), { r.2 with unordered := some n })

theorem setTail_ok (isDef : α → Bool) (h : Heap α) (b : HB) (u : Nat) (m : Bytes × α) (w : LW h b)
    (hu : b.unordered = some u) (hs : b.snap = none) :
    Frame h (setTail isDef h b u m).1 b (setTail isDef h b u m).2 ∧ LW (setTail isDef h b u m).1 (setTail isDef h b u m).2 ∧
    (setTail isDef h b u m).2.base = b.base ∧ (setTail isDef h b u m).2.snap = none ∧
    view (setTail isDef h b u m).1 (setTail isDef h b u m).2 = ObjB.setInternal isDef (view h b) m := by
  obtain ⟨u1, u2, u3, u4⟩ := w.un u hu
  by_cases hc : (h.cells u).items.length < (h.cells u).cap
  · have e : setTail isDef h b u m = (h.put u { h.cells u with items := (h.cells u).items ++ [m] }, b) := by
      simp only [setTail]; exact if_pos hc
    rw [e]
    refine ⟨⟨by simp, ?_, fun _ e => .inl e, fun _ e => .inl e⟩, ⟨w.base, ?_, w.snap, w.un⟩, rfl, hs, ?_⟩
    · intro x _ hx
      have : x ≠ u := fun e => hx (by rw [e]; exact hu)
      simp [this]
    · intro o ho
      have : o ≠ u := fun e => u3 (by rw [← e]; exact ho)
      simpa [this] using w.ord o ho
    · obtain ⟨bb, bo, bu, bs⟩ := b
      simp only at hu hs u2 u3
      subst hu hs
      have a2 : bb ≠ u := fun e => u2 e.symm
      have ao : (bo.map fun o => ((h.put u { h.cells u with items := (h.cells u).items ++ [m] }).cells o).items) =
          bo.map fun o => (h.cells o).items := by
        cases bo with
        | none => rfl
        | some o =>
          have : o ≠ u := fun e => u3 (by rw [e])
          simp [this]
      simp only [view, ao]
      simp [ObjB.setInternal, Cont.push, a2, hc]
  · have hcn : h.cells u = (h.alloc ⟨(h.cells u).items.length * 2, [], false⟩).cells u := by
      have : u ≠ h.next := by omega
      simp [this]
    obtain ⟨lw, lv⟩ := alloc_ok h b ⟨(h.cells u).items.length * 2, [], false⟩ w
    obtain ⟨f, l, e1, e2, e3, ev⟩ := optimize_ok isDef (h.alloc ⟨(h.cells u).items.length * 2, [], false⟩) b lw
    generalize hg : h.alloc ⟨(h.cells u).items.length * 2, [], false⟩ = h1 at *
    have hn1 : h1.next = h.next + 1 := by rw [← hg]; rfl
    have hn2 : h1.cells h.next = ⟨(h.cells u).items.length * 2, [], false⟩ := by rw [← hg]; simp
    have hkeep1 : ∀ x, x < h.next → h1.cells x = h.cells x := by
      intro x hx
      have : x ≠ h.next := by omega
      rw [← hg]; simp [this]
    generalize hr : optimize isDef h1 b = r at *
    obtain ⟨h2, b2⟩ := r
    simp only at f l e1 e2 e3 ev
    have hun : b.unordered ≠ some h.next := by rw [hu]; simp; omega
    have hn3 : h2.cells h.next = ⟨(h.cells u).items.length * 2, [], false⟩ := by
      rw [f.keep _ (by omega) hun, hn2]
    have hb2u : b2.unordered = some u := by rw [e3, hu]
    have hnext := f.next
    have hord2 : ∀ o, b2.ordered = some o → o ≠ h.next := by
      intro o ho
      rcases f.ord o ho with h0 | h0
      · have := (w.ord o h0).1; omega
      · omega
    have e : setTail isDef h b u m =
        ((if 0 < (h.cells u).items.length * 2 then h2.put h.next ⟨(h.cells u).items.length * 2, [m], false⟩ else h2),
          { b2 with unordered := some h.next }) := by
      simp only [setTail]
      refine Eq.trans (if_neg hc) ?_
      rw [hg, hr]
      simp [hn3]
    rw [e]
    have hk2 : ∀ x, x ≠ h.next →
        (if 0 < (h.cells u).items.length * 2 then h2.put h.next ⟨(h.cells u).items.length * 2, [m], false⟩ else h2).cells x =
          h2.cells x := by
      intro x hx
      split
      · simp [hx]
      · rfl
    have hnx : (if 0 < (h.cells u).items.length * 2 then h2.put h.next ⟨(h.cells u).items.length * 2, [m], false⟩ else h2).next
        = h2.next := by split <;> rfl
    refine ⟨⟨?_, ?_, ?_, ?_⟩, ⟨?_, ?_, ?_, ?_⟩, e1, by rw [← hs, ← e2], ?_⟩
    · simp only [hnx]; omega
    · intro x hx hxu
      simp only
      rw [hk2 x (by omega), f.keep x (by omega) hxu, hkeep1 x hx]
    · intro v hv
      obtain rfl : h.next = v := by simpa using hv
      refine .inr ⟨Nat.le_refl _, ?_⟩
      simp only [hnx]; omega
    · intro o ho
      rcases f.ord o ho with h0 | h0
      · exact .inl h0
      · refine .inr ⟨by omega, ?_⟩
        simp only [hnx]; exact h0.2
    · have := l.base; simp only [hnx]; exact this
    · intro o ho
      simp only [hnx]
      rw [hk2 o (hord2 o ho)]
      exact l.ord o ho
    · intro s hs'
      simp only [hnx]
      exact l.snap s hs'
    · intro v hv
      obtain rfl : h.next = v := by simpa using hv
      simp only [hnx]
      refine ⟨by omega, ?_, ?_, ?_⟩
      · rw [e1]; have := w.base; omega
      · intro ho; exact hord2 _ ho rfl
      · rw [e2, hs]; simp
    · have evv : ObjB.setInternal isDef (view h b) m =
          { ObjB.optimize isDef (view h b) with
            unordered := some (if 0 < (h.cells u).items.length * 2 then ⟨(h.cells u).items.length * 2, [m]⟩ else ⟨(h.cells u).items.length * 2, []⟩) } := by
        have v1 : (view h b).unordered = some ⟨(h.cells u).cap, (h.cells u).items⟩ := by simp [view, hu]
        have v2 : (view h b).snap = none := by simp [view, hs]
        generalize view h b = s at v1 v2
        obtain ⟨s1, s2, s3, s4, s5⟩ := s
        simp only at v1 v2
        subst v1 v2
        simp only [ObjB.setInternal, Option.getD_some, Cont.push, if_neg hc, List.length_nil, List.nil_append]
        congr 2
        split <;> rfl
      rw [evv, ← lv, ← ev]
      have hbase : b2.base ≠ h.next := by rw [e1]; have := w.base; omega
      obtain ⟨bb2, bo2, bu2, bs2⟩ := b2
      simp only at hb2u hord2 hbase e2 ⊢
      rw [hs] at e2
      subst e2
      simp only [view, hk2 _ hbase, Option.map_some, Option.map_none]
      congr 1
      · cases bo2 with
        | none => rfl
        | some o => simp only [Option.map_some, hk2 o (hord2 o rfl)]
      · split <;> simp [hn3]

theorem setInternal_ok (isDef : α → Bool) (h : Heap α) (b : HB) (m : Bytes × α) (w : LW h b) :
    Frame h (setInternal isDef h b m).1 b (setInternal isDef h b m).2 ∧
    LW (setInternal isDef h b m).1 (setInternal isDef h b m).2 ∧
    (setInternal isDef h b m).2.base = b.base ∧ (setInternal isDef h b m).2.snap = none ∧
    view (setInternal isDef h b m).1 (setInternal isDef h b m).2 = ObjB.setInternal isDef (view h b) m := by
  obtain ⟨bb, bo, bu, bs⟩ := b
  cases bu with
  | some u =>
    have w' : LW h ⟨bb, bo, some u, none⟩ := ⟨w.base, w.ord, fun s hs => by simp at hs, fun v hv => by
      obtain ⟨a, b, c, d⟩ := w.un v hv; exact ⟨a, b, c, by simp⟩⟩
    obtain ⟨f, l, e1, e2, ev⟩ := setTail_ok isDef h ⟨bb, bo, some u, none⟩ u m w' rfl rfl
    exact ⟨⟨f.next, f.keep, f.un, f.ord⟩, l, e1, e2, ev⟩
  | none =>
    have w0 : LW h ⟨bb, bo, none, none⟩ := ⟨w.base, w.ord, fun s hs => by simp at hs, fun v hv => by simp at hv⟩
    obtain ⟨l0, v0⟩ := alloc_ok h ⟨bb, bo, none, none⟩ ⟨8, [], false⟩ w0
    have hn : (h.alloc ⟨8, [], false⟩).next = h.next + 1 := rfl
    have w' : LW (h.alloc ⟨8, [], false⟩) ⟨bb, bo, some h.next, none⟩ := by
      refine ⟨l0.base, l0.ord, fun s hs => by simp at hs, fun v hv => ?_⟩
      obtain rfl : h.next = v := by simpa using hv
      refine ⟨by simp, ?_, ?_, by simp⟩
      · have : bb < h.next := w.base
        show h.next ≠ bb
        omega
      · intro ho; have := (w.ord _ ho).1; omega
    obtain ⟨f, l, e1, e2, ev⟩ := setTail_ok isDef (h.alloc ⟨8, [], false⟩) ⟨bb, bo, some h.next, none⟩ h.next m w' rfl rfl
    have e : setInternal isDef h ⟨bb, bo, none, bs⟩ m = setTail isDef (h.alloc ⟨8, [], false⟩) ⟨bb, bo, some h.next, none⟩ h.next m := rfl
    rw [e]
    have g : Frame h (h.alloc (⟨8, [], false⟩ : Cell α)) ⟨bb, bo, none, bs⟩ ⟨bb, bo, some h.next, none⟩ := by
      refine ⟨by simp, ?_, ?_, fun _ e => .inl e⟩
      · intro x hx _
        have : x ≠ h.next := by omega
        simp [this]
      · intro u hu
        obtain rfl : h.next = u := by simpa using hu
        exact .inr (by simp)
    refine ⟨g.trans f, l, e1, e2, ?_⟩
    rw [ev]
    have hv1 : view (h.alloc (⟨8, [], false⟩ : Cell α)) ⟨bb, bo, some h.next, none⟩ =
        { view h ⟨bb, bo, none, none⟩ with unordered := some ⟨8, []⟩ } := by
      rw [← v0]
      simp [view]
    rw [hv1]
    rfl

/-- What operations that hand out one value guarantee: it is a value of the base, the ordered cell, or new and not written. -/
structure Hands (h h' : Heap α) (b b' : HB) (v : Nat) : Prop where
  lt : v < h'.next
  from' : v = b.base ∨ b'.ordered = some v ∨ v = 0 ∨ b.snap = some v ∨ (h.next ≤ v ∧ b'.unordered ≠ some v)

theorem commit_ok (isDef : α → Bool) (h : Heap α) (b : HB) (w : LW h b) :
    Frame h (commit isDef h b).2.1 b (commit isDef h b).2.2 ∧ LW (commit isDef h b).2.1 (commit isDef h b).2.2 ∧
    (commit isDef h b).2.2.base = b.base ∧ (commit isDef h b).2.2.snap = b.snap ∧
    (commit isDef h b).2.2.unordered = b.unordered ∧
    view (commit isDef h b).2.1 (commit isDef h b).2.2 = (ObjB.commit isDef (view h b)).2 ∧
    ((commit isDef h b).2.1.cells (commit isDef h b).1).items = (ObjB.commit isDef (view h b)).1 ∧
    ((commit isDef h b).2.1.cells (commit isDef h b).1).diff = (view h b).baseDiff ∧
    Hands h (commit isDef h b).2.1 b (commit isDef h b).2.2 (commit isDef h b).1 ∧
    b.unordered ≠ some (commit isDef h b).1 := by
  obtain ⟨f, l, e1, e2, e3, ev⟩ := optimize_ok isDef h b w
  have hbd : (h.cells b.base).diff = ((optimize isDef h b).1.cells b.base).diff := by
    rw [f.keep _ w.base]; intro e; exact (w.un _ e).2.1 rfl
  simp only [commit, ObjB.commit, ← ev]
  generalize optimize isDef h b = r at *
  obtain ⟨h2, b2⟩ := r
  simp only at f l e1 e2 e3 ev hbd ⊢
  cases ho : b2.ordered with
  | none =>
    simp only [view, ho, Option.map_none]
    refine ⟨f, l, e1, e2, e3, ?_, trivial, ?_, ⟨l.base, .inl e1⟩, ?_⟩
    · simp [ho]
    · rw [e1, hbd]
    · intro e; exact (w.un _ e).2.1 e1
  | some o =>
    obtain ⟨l', v'⟩ := alloc_ok h2 b2 ⟨(h2.cells b2.base).items.length + (h2.cells o).items.length,
      applyDiff isDef (h2.cells b2.base).diff (h2.cells b2.base).items (h2.cells o).items, (h2.cells b2.base).diff⟩ l
    have hnx := f.next
    have hun : b2.unordered ≠ some h2.next := by
      intro e; have := (l.un _ e).1; omega
    have g : Frame h2 (h2.alloc ⟨(h2.cells b2.base).items.length + (h2.cells o).items.length,
      applyDiff isDef (h2.cells b2.base).diff (h2.cells b2.base).items (h2.cells o).items, (h2.cells b2.base).diff⟩) b2 b2 := by
      refine ⟨by simp, ?_, fun _ e => .inl e, fun _ e => .inl e⟩
      intro x hx _
      have : x ≠ h2.next := by omega
      simp [this]
    simp only
    refine ⟨f.trans g, l', e1, e2, e3, ?_, ?_, ?_, ⟨by simp, .inr (.inr (.inr (.inr ⟨hnx, hun⟩)))⟩, by rw [← e3]; exact hun⟩
    · rw [v']; simp [view, ho]
    · simp [view, ho]
    · simp [view, e1, hbd]

theorem iterate_ok (isDef : α → Bool) (h : Heap α) (b : HB) (w : LW h b) :
    Frame h (iterate isDef h b).2.1 b (iterate isDef h b).2.2 ∧ LW (iterate isDef h b).2.1 (iterate isDef h b).2.2 ∧
    (iterate isDef h b).2.2.base = b.base ∧ (iterate isDef h b).2.2.snap = some (iterate isDef h b).1 ∧
    view (iterate isDef h b).2.1 (iterate isDef h b).2.2 = (ObjB.iterate isDef (view h b)).2 ∧
    ((iterate isDef h b).2.1.cells (iterate isDef h b).1).items = (ObjB.iterate isDef (view h b)).1 ∧
    Hands h (iterate isDef h b).2.1 b (iterate isDef h b).2.2 (iterate isDef h b).1 := by
  cases hs : b.snap with
  | some s =>
    have e : iterate isDef h b = (s, h, b) := by simp [iterate, hs]
    have e' : ObjB.iterate isDef (view h b) = ((h.cells s).items, view h b) := by simp [ObjB.iterate, view, hs]
    rw [e, e']
    exact ⟨Frame.refl _ _, w, rfl, hs, rfl, rfl, ⟨w.snap s hs, .inr (.inr (.inr (.inl hs)))⟩⟩
  | none =>
    obtain ⟨f, l, e1, e2, e3, ev, ei, _, hh, hu⟩ := commit_ok isDef h b w
    have e : iterate isDef h b =
        ((commit isDef h b).1, (commit isDef h b).2.1, { (commit isDef h b).2.2 with snap := some (commit isDef h b).1 }) := by
      simp [iterate, hs]
    have e' : ObjB.iterate isDef (view h b) =
        ((ObjB.commit isDef (view h b)).1, { (ObjB.commit isDef (view h b)).2 with snap := some (ObjB.commit isDef (view h b)).1 }) := by
      have : (view h b).snap = none := by simp [view, hs]
      simp [ObjB.iterate, this]
    rw [e, e', ← ev, ← ei]
    refine ⟨⟨f.next, f.keep, f.un, f.ord⟩, ⟨l.base, l.ord, ?_, ?_⟩, e1, rfl, ?_, rfl, ⟨hh.lt, ?_⟩⟩
    · intro s hs'
      obtain rfl : (commit isDef h b).1 = s := by simpa using hs'
      exact hh.lt
    · intro u hu'
      obtain ⟨a, b', c, _⟩ := l.un u hu'
      refine ⟨a, b', c, ?_⟩
      intro he
      have he' : (commit isDef h b).1 = u := by simpa using he
      exact hu (by rw [he', ← e3]; exact hu')
    · simp [view]
    · exact hh.from'

theorem mergeLoop_ok (isDef : α → Bool) (id : Nat) : ∀ (n i : Nat) (h : Heap α) (b : HB), LW h b → id < h.next →
    b.unordered ≠ some id → i + n = (h.cells id).items.length →
    Frame h (mergeLoop isDef id n i h b).1 b (mergeLoop isDef id n i h b).2 ∧
    LW (mergeLoop isDef id n i h b).1 (mergeLoop isDef id n i h b).2 ∧
    (mergeLoop isDef id n i h b).2.base = b.base ∧
    ((mergeLoop isDef id n i h b).2.snap = b.snap ∨ (mergeLoop isDef id n i h b).2.snap = none) ∧
    view (mergeLoop isDef id n i h b).1 (mergeLoop isDef id n i h b).2 =
      ObjB.merge isDef (view h b) ((h.cells id).items.drop i) := by
  intro n
  induction n with
  | zero =>
    intro i h b w _ _ hl
    refine ⟨Frame.refl _ _, w, rfl, .inl rfl, ?_⟩
    rw [List.drop_eq_nil_of_le (by omega)]
    rfl
  | succ n ih =>
    intro i h b w hid hu hl
    have hi : i < (h.cells id).items.length := by omega
    obtain ⟨f, l, e1, e2, ev⟩ := setInternal_ok isDef h b (h.cells id).items[i] w
    have e : mergeLoop isDef id (n + 1) i h b = mergeLoop isDef id n (i + 1) (setInternal isDef h b (h.cells id).items[i]).1
        (setInternal isDef h b (h.cells id).items[i]).2 := by
      rw [mergeLoop, List.getElem?_eq_getElem hi]
    rw [e]
    have hk : (setInternal isDef h b (h.cells id).items[i]).1.cells id = h.cells id := f.keep id hid hu
    have hn := f.next
    obtain ⟨f', l', e1', e2', ev'⟩ := ih (i + 1) _ _ l (by omega)
      (by
        intro e
        rcases f.un id e with h1 | h1
        · exact hu h1
        · omega)
      (by rw [hk]; omega)
    refine ⟨f.trans f', l', e1'.trans e1, ?_, ?_⟩
    · rcases e2' with h1 | h1
      · exact .inr (h1.trans e2)
      · exact .inr h1
    · rw [ev', ev, hk, List.drop_eq_getElem_cons hi]
      rfl

end Imt.ObjHeap

namespace Imt.ObjHeap
open Imt Imt.Obj Imt.ObjB

variable {α : Type}

/-- The whole memory is well formed: cells written by a builder are neither values nor cells of other builders. -/
structure WF (w : World α) : Prop where
  vlt : ∀ v ∈ w.vals, v < w.heap.next
  zero : 0 ∈ w.vals ∧ (w.heap.cells 0).items = [] ∧ (w.heap.cells 0).diff = false
  each : ∀ (i : Nat) (b : HB), w.builders[i]? = some (some b) → LW w.heap b ∧ b.base ∈ w.vals
  own : ∀ (i : Nat) (b : HB) (u : Nat), w.builders[i]? = some (some b) → b.unordered = some u → u ∉ w.vals
  sep : ∀ (i j : Nat) (b c : HB) (u : Nat), w.builders[i]? = some (some b) → w.builders[j]? = some (some c) → i ≠ j → b.unordered = some u →
    c.unordered ≠ some u ∧ c.ordered ≠ some u ∧ c.snap ≠ some u

/-- `B'` is `B` with `n` at place `i`. -/
def Slot (B B' : List (Option HB)) (i : Nat) (n : HB) : Prop :=
  ∀ (k : Nat) (c : HB), B'[k]? = some (some c) → (k ≠ i ∧ B[k]? = some (some c)) ∨ (k = i ∧ c = n)

theorem slot_set (B : List (Option HB)) (i : Nat) (n : HB) : Slot B (B.set i (some n)) i n := by
  intro k c h
  rw [List.getElem?_set] at h
  by_cases hk : i = k
  · subst hk
    simp only [if_true] at h
    by_cases hl : i < B.length
    · rw [if_pos hl] at h
      exact .inr ⟨rfl, by simpa using h.symm⟩
    · rw [if_neg hl] at h; cases h
  · rw [if_neg hk] at h
    exact .inl ⟨fun e => hk e.symm, h⟩

theorem slot_append (B : List (Option HB)) (n : HB) : Slot B (B ++ [some n]) B.length n := by
  intro k c h
  by_cases hk : k < B.length
  · rw [List.getElem?_append_left hk] at h
    exact .inl ⟨by omega, h⟩
  · rw [List.getElem?_append_right (by omega)] at h
    have : k - B.length = 0 := by
      by_contra hne
      rw [List.getElem?_eq_none (by simp; omega)] at h; cases h
    rw [this] at h
    exact .inr ⟨by omega, by simpa using h.symm⟩

/-- An operation of builder `i` keeps memory well formed. -/
theorem act_wf {w : World α} (W : WF w) {i : Nat} {b b' : HB} {h' : Heap α} {nv : List Nat} {B' : List (Option HB)}
    (hb : w.builders[i]? = some (some b)) (hB : Slot w.builders B' i b')
    (f : Frame w.heap h' b b') (l : LW h' b') (hbase : b'.base ∈ w.vals ++ nv)
    (hsnap : ∀ s, b'.snap = some s → s ∈ w.vals ∨ b.snap = some s ∨ w.heap.next ≤ s)
    (hnv : ∀ v ∈ nv, v < h'.next ∧ (v ∈ w.vals ∨ b'.ordered = some v ∨ (w.heap.next ≤ v ∧ b'.unordered ≠ some v))) :
    WF ({ heap := h', builders := B', vals := w.vals ++ nv } : World α) := by
  obtain ⟨lb, _⟩ := W.each i b hb
  have keepV : ∀ v ∈ w.vals, h'.cells v = w.heap.cells v := fun v hv =>
    f.keep v (W.vlt v hv) (fun e => W.own i b v hb e hv)
  have hnx := f.next
  refine ⟨?_, ⟨?_, ?_, ?_⟩, ?_, ?_, ?_⟩
  · intro v hv
    rcases List.mem_append.1 hv with h | h
    · have := W.vlt v h; simp only; omega
    · exact (hnv v h).1
  · exact List.mem_append_left _ W.zero.1
  · simp only; rw [keepV 0 W.zero.1]; exact W.zero.2.1
  · simp only; rw [keepV 0 W.zero.1]; exact W.zero.2.2
  · intro k c hc
    rcases hB k c hc with ⟨hk, hc⟩ | ⟨_, rfl⟩
    · obtain ⟨lc, bc⟩ := W.each k c hc
      refine ⟨⟨?_, ?_, ?_, ?_⟩, List.mem_append_left _ bc⟩
      · have := lc.base; simp only; omega
      · intro o ho
        obtain ⟨a, d⟩ := lc.ord o ho
        have : h'.cells o = w.heap.cells o := f.keep o a (fun e => (W.sep i k b c o hb hc (fun e => hk e.symm) e).2.1 ho)
        refine ⟨by simp only; omega, ?_⟩
        simp only; rw [this]; exact d
      · intro s hs; have := lc.snap s hs; simp only; omega
      · intro u hu; obtain ⟨a, d⟩ := lc.un u hu; exact ⟨by simp only; omega, d⟩
    · exact ⟨l, hbase⟩
  · intro k c u hc hu hm
    rcases hB k c hc with ⟨hk, hc⟩ | ⟨_, rfl⟩
    · have hu0 := (W.each k c hc).1.un u hu
      rcases List.mem_append.1 hm with h | h
      · exact W.own k c u hc hu h
      · rcases (hnv u h).2 with h1 | h1 | h1
        · exact W.own k c u hc hu h1
        · rcases f.ord u h1 with h2 | h2
          · exact (W.sep k i c b u hc hb hk hu).2.1 h2
          · omega
        · omega
    · rcases List.mem_append.1 hm with h | h
      · rcases f.un u hu with h1 | h1
        · exact W.own i b u hb h1 h
        · have := W.vlt u h; omega
      · rcases (hnv u h).2 with h1 | h1 | h1
        · rcases f.un u hu with h2 | h2
          · exact W.own i b u hb h2 h1
          · have := W.vlt u h1; omega
        · exact (l.un u hu).2.2.1 h1
        · exact h1.2 hu
  · intro k m c d u hc hd hne hu
    rcases hB k c hc with ⟨hk, hc⟩ | ⟨hk, rfl⟩
    · have hu0 := (W.each k c hc).1.un u hu
      rcases hB m d hd with ⟨hm, hd⟩ | ⟨hm, rfl⟩
      · exact W.sep k m c d u hc hd hne hu
      · have hs := W.sep k i c b u hc hb (by omega) hu
        constructor
        · intro e
          rcases f.un u e with h1 | h1
          · exact hs.1 h1
          · omega
        refine ⟨?_, ?_⟩
        · intro e
          rcases f.ord u e with h1 | h1
          · exact hs.2.1 h1
          · omega
        · intro e
          rcases hsnap u e with h1 | h1 | h1
          · exact W.own k c u hc hu h1
          · exact hs.2.2 h1
          · omega
    · rcases hB m d hd with ⟨hm, hd⟩ | ⟨hm, rfl⟩
      · rcases f.un u hu with h1 | h1
        · exact W.sep i m b d u hb hd (by omega) h1
        · have hl := (W.each m d hd).1
          refine ⟨?_, ?_, ?_⟩
          · intro e; have := (hl.un u e).1; omega
          · intro e; have := (hl.ord u e).1; omega
          · intro e; have := hl.snap u e; omega
      · omega

/-- A new builder over shared cells, with a new unordered cell at most. -/
theorem fresh_wf {w : World α} (W : WF w) {i : Nat} {n : HB} {h' : Heap α} {B' : List (Option HB)}
    (hB : Slot w.builders B' i n) (hh : w.heap.next ≤ h'.next) (hk : ∀ x, x < w.heap.next → h'.cells x = w.heap.cells x)
    (l : LW h' n) (hbase : n.base ∈ w.vals)
    (hsnap : ∀ o, n.snap = some o → ∃ (j : Nat) (c : HB), w.builders[j]? = some (some c) ∧ c.snap = some o)
    (hun : ∀ u, n.unordered = some u → w.heap.next ≤ u)
    (hord : ∀ o, n.ordered = some o → ∃ (j : Nat) (c : HB), w.builders[j]? = some (some c) ∧ c.ordered = some o) :
    WF ({ heap := h', builders := B', vals := w.vals } : World α) := by
  refine ⟨?_, ⟨W.zero.1, ?_, ?_⟩, ?_, ?_, ?_⟩
  · intro v hv; have := W.vlt v hv; simp only; omega
  · simp only; rw [hk 0 (W.vlt 0 W.zero.1)]; exact W.zero.2.1
  · simp only; rw [hk 0 (W.vlt 0 W.zero.1)]; exact W.zero.2.2
  · intro k c hc
    rcases hB k c hc with ⟨_, hc⟩ | ⟨_, rfl⟩
    · obtain ⟨lc, bc⟩ := W.each k c hc
      refine ⟨⟨?_, ?_, ?_, ?_⟩, bc⟩
      · have := lc.base; simp only; omega
      · intro o ho
        obtain ⟨a, d⟩ := lc.ord o ho
        refine ⟨by simp only; omega, ?_⟩
        simp only; rw [hk o a]; exact d
      · intro s hs; have := lc.snap s hs; simp only; omega
      · intro u hu; obtain ⟨a, d⟩ := lc.un u hu; exact ⟨by simp only; omega, d⟩
    · exact ⟨l, hbase⟩
  · intro k c u hc hu hm
    rcases hB k c hc with ⟨_, hc⟩ | ⟨_, rfl⟩
    · exact W.own k c u hc hu hm
    · have := hun u hu; have := W.vlt u hm; omega
  · intro k m c d u hc hd hne hu
    rcases hB k c hc with ⟨_, hc⟩ | ⟨hk', rfl⟩
    · have hu0 := (W.each k c hc).1.un u hu
      rcases hB m d hd with ⟨_, hd⟩ | ⟨_, rfl⟩
      · exact W.sep k m c d u hc hd hne hu
      · refine ⟨?_, ?_, ?_⟩
        · intro e; have := hun u e; omega
        · intro e
          obtain ⟨j, c', hj, ho⟩ := hord u e
          by_cases hjk : j = k
          · subst hjk
            rw [hc] at hj
            obtain rfl : c = c' := by simpa using hj
            exact hu0.2.2.1 ho
          · exact (W.sep k j c c' u hc hj (fun e => hjk e.symm) hu).2.1 ho
        · intro e
          obtain ⟨j, c', hj, ho⟩ := hsnap u e
          by_cases hjk : j = k
          · subst hjk
            rw [hc] at hj
            obtain rfl : c = c' := by simpa using hj
            exact hu0.2.2.2 ho
          · exact (W.sep k j c c' u hc hj (fun e => hjk e.symm) hu).2.2 ho
    · rcases hB m d hd with ⟨_, hd⟩ | ⟨_, rfl⟩
      · have hl := (W.each m d hd).1
        have := hun u hu
        refine ⟨?_, ?_, ?_⟩
        · intro e; have := (hl.un u e).1; omega
        · intro e; have := (hl.ord u e).1; omega
        · intro e; have := hl.snap u e; omega
      · omega

/-- Builder `j` moves to place `i`. -/
theorem away_wf {w : World α} (W : WF w) {i j : Nat} {b n : HB} {B' : List (Option HB)}
    (hb : w.builders[j]? = some (some b)) (hj : j ≠ i)
    (hB : ∀ (k : Nat) (c : HB), B'[k]? = some (some c) → (k ≠ i ∧ k ≠ j ∧ w.builders[k]? = some (some c)) ∨ (k = i ∧ c = n))
    (h1 : n.base = b.base) (h2 : n.ordered = b.ordered) (h3 : n.unordered = b.unordered)
    (hsnap : ∀ o, n.snap = some o → ∃ (j : Nat) (c : HB), w.builders[j]? = some (some c) ∧ c.snap = some o) :
    WF ({ heap := w.heap, builders := B', vals := w.vals } : World α) := by
  obtain ⟨lb, bb⟩ := W.each j b hb
  have hsn : ∀ (k : Nat) (c : HB) (u : Nat), w.builders[k]? = some (some c) → c.unordered = some u → n.snap ≠ some u := by
    intro k c u hc hu e
    obtain ⟨j', c', hj', ho⟩ := hsnap u e
    by_cases hjk : j' = k
    · subst hjk
      rw [hc] at hj'
      obtain rfl : c = c' := by simpa using hj'
      exact ((W.each _ c hc).1.un u hu).2.2.2 ho
    · exact (W.sep k j' c c' u hc hj' (fun e => hjk e.symm) hu).2.2 ho
  have ln : LW w.heap n := by
    refine ⟨by rw [h1]; exact lb.base, by rw [h2]; exact lb.ord, ?_, ?_⟩
    · intro s hs
      obtain ⟨j', c', hj', ho⟩ := hsnap s hs
      exact (W.each _ c' hj').1.snap s ho
    intro u hu
    rw [h3] at hu
    obtain ⟨a, c, d, _⟩ := lb.un u hu
    refine ⟨a, by rw [h1]; exact c, by rw [h2]; exact d, ?_⟩
    exact hsn j b u hb hu
  refine ⟨W.vlt, W.zero, ?_, ?_, ?_⟩
  · intro k c hc
    rcases hB k c hc with ⟨_, _, hc⟩ | ⟨_, rfl⟩
    · exact W.each k c hc
    · exact ⟨ln, by rw [h1]; exact bb⟩
  · intro k c u hc hu
    rcases hB k c hc with ⟨_, _, hc⟩ | ⟨_, rfl⟩
    · exact W.own k c u hc hu
    · exact W.own j b u hb (by rw [← h3]; exact hu)
  · intro k m c d u hc hd hne hu
    rcases hB k c hc with ⟨_, hkj, hc⟩ | ⟨hk, rfl⟩
    · rcases hB m d hd with ⟨_, _, hd⟩ | ⟨_, rfl⟩
      · exact W.sep k m c d u hc hd hne hu
      · have hs := W.sep k j c b u hc hb hkj hu
        exact ⟨by rw [h3]; exact hs.1, by rw [h2]; exact hs.2.1, hsn k c u hc hu⟩
    · rcases hB m d hd with ⟨_, hmj, hd⟩ | ⟨_, rfl⟩
      · exact W.sep j m b d u hb hd (fun e => hmj e.symm) (by rw [← h3]; exact hu)
      · omega

/-- The builders as builders with containers of their own. -/
def absB (h : Heap α) (B : List (Option HB)) : List (Option (OB α)) := B.map (Option.map (view h))

/-- The values. -/
def absV (h : Heap α) (V : List Nat) : List (Members α × Bool) := V.map (fun v => ((h.cells v).items, (h.cells v).diff))

theorem absB_congr {h h' : Heap α} {B : List (Option HB)} (H : ∀ (k : Nat) (c : HB), B[k]? = some (some c) → view h' c = view h c) :
    absB h' B = absB h B := by
  apply List.map_congr_left
  intro o ho
  obtain ⟨k, hk⟩ := List.getElem?_of_mem ho
  cases o with
  | none => rfl
  | some c => simp [H k c hk]

theorem absB_set {h h' : Heap α} {B : List (Option HB)} {i : Nat} {x : Option HB}
    (H : ∀ (k : Nat) (c : HB), k ≠ i → B[k]? = some (some c) → view h' c = view h c) :
    absB h' (B.set i x) = (absB h B).set i (x.map (view h')) := by
  unfold absB
  rw [List.map_set]
  apply List.ext_getElem?
  intro k
  rw [List.getElem?_set, List.getElem?_set]
  simp only [List.length_map, List.getElem?_map]
  by_cases hk : i = k
  · simp [hk]
  · rw [if_neg hk, if_neg hk]
    cases hb : B[k]? with
    | none => rfl
    | some o =>
      cases o with
      | none => rfl
      | some c => simp [H k c (fun e => hk e.symm) hb]

theorem absV_congr {h h' : Heap α} {V : List Nat} (H : ∀ v ∈ V, h'.cells v = h.cells v) : absV h' V = absV h V := by
  apply List.map_congr_left
  intro v hv
  simp only [H v hv]

/-- Another builder's view is not changed by an operation of builder `i`. -/
theorem other_view {w : World α} (W : WF w) {i k : Nat} {b b' c : HB} {h' : Heap α} (f : Frame w.heap h' b b')
    (hb : w.builders[i]? = some (some b)) (hc : w.builders[k]? = some (some c)) (hk : k ≠ i) :
    view h' c = view w.heap c := by
  obtain ⟨lc, bc⟩ := W.each k c hc
  apply view_congr
  · exact f.keep _ lc.base (fun e => W.own i b _ hb e bc)
  · intro o ho; exact f.keep o (lc.ord o ho).1 (fun e => (W.sep i k b c o hb hc (fun e => hk e.symm) e).2.1 ho)
  · intro o ho; exact f.keep o (lc.un o ho).1 (fun e => (W.sep i k b c o hb hc (fun e => hk e.symm) e).1 ho)
  · intro o ho; exact f.keep o (lc.snap o ho) (fun e => (W.sep i k b c o hb hc (fun e => hk e.symm) e).2.2 ho)

theorem vals_keep {w : World α} (W : WF w) {i : Nat} {b b' : HB} {h' : Heap α} (f : Frame w.heap h' b b')
    (hb : w.builders[i]? = some (some b)) : ∀ v ∈ w.vals, h'.cells v = w.heap.cells v := fun v hv =>
  f.keep v (W.vlt v hv) (fun e => W.own i b v hb e hv)

/-- A world of builders that share nothing. -/
structure PWorld (α : Type) where
  builders : List (Option (OB α))
  vals : List (Members α × Bool)

/-- What a world denotes. -/
def abs (w : World α) : PWorld α := ⟨absB w.heap w.builders, absV w.heap w.vals⟩

/-- All facts about an operation of one builder. -/
theorem act_ok {w : World α} (W : WF w) (i : Nat) (f : HB → Heap α × HB × List Nat)
    (H : ∀ b, w.builders[i]? = some (some b) →
      Frame w.heap (f b).1 b (f b).2.1 ∧ LW (f b).1 (f b).2.1 ∧ (f b).2.1.base ∈ w.vals ++ (f b).2.2 ∧
      (∀ s, (f b).2.1.snap = some s → s ∈ w.vals ∨ b.snap = some s ∨ w.heap.next ≤ s) ∧
      ∀ v ∈ (f b).2.2, v < (f b).1.next ∧
        (v ∈ w.vals ∨ (f b).2.1.ordered = some v ∨ (w.heap.next ≤ v ∧ (f b).2.1.unordered ≠ some v))) :
    WF (w.act i f) ∧
    (∀ v ∈ w.vals, (w.act i f).heap.cells v = w.heap.cells v) ∧
    abs (w.act i f) = match w.builders[i]? with
      | some (some b) => ⟨(abs w).builders.set i (some (view (f b).1 (f b).2.1)), (abs w).vals ++ absV (f b).1 (f b).2.2⟩
      | _ => abs w := by
  unfold World.act
  cases hb : w.builders[i]? with
  | none => exact ⟨W, fun _ _ => rfl, rfl⟩
  | some o =>
    cases o with
    | none => exact ⟨W, fun _ _ => rfl, rfl⟩
    | some b =>
      obtain ⟨h1, h2, h3, h4, h5⟩ := H b hb
      refine ⟨act_wf W hb (slot_set _ _ _) h1 h2 h3 h4 h5, vals_keep W h1 hb, ?_⟩
      simp only [abs]
      congr 1
      · exact absB_set (fun k c hk hc => other_view W h1 hb hc hk)
      · rw [absV, List.map_append]
        congr 1
        exact absV_congr (vals_keep W h1 hb)

/-- The corresponding change of one builder that shares nothing. -/
def PWorld.act (p : PWorld α) (i : Nat) (f : OB α → OB α × List (Members α × Bool)) : PWorld α :=
  match p.builders[i]? with
  | some (some b) => ⟨p.builders.set i (some (f b).1), p.vals ++ (f b).2⟩
  | _ => p

theorem abs_get (w : World α) (i : Nat) : (abs w).builders[i]? = (w.builders[i]?).map (Option.map (view w.heap)) := by
  simp [abs, absB]

theorem act_refines {w : World α} (W : WF w) (i : Nat) (f : HB → Heap α × HB × List Nat)
    (g : OB α → OB α × List (Members α × Bool))
    (H : ∀ b, w.builders[i]? = some (some b) →
      Frame w.heap (f b).1 b (f b).2.1 ∧ LW (f b).1 (f b).2.1 ∧ (f b).2.1.base ∈ w.vals ++ (f b).2.2 ∧
      (∀ s, (f b).2.1.snap = some s → s ∈ w.vals ∨ b.snap = some s ∨ w.heap.next ≤ s) ∧
      (∀ v ∈ (f b).2.2, v < (f b).1.next ∧
        (v ∈ w.vals ∨ (f b).2.1.ordered = some v ∨ (w.heap.next ≤ v ∧ (f b).2.1.unordered ≠ some v))) ∧
      view (f b).1 (f b).2.1 = (g (view w.heap b)).1 ∧ absV (f b).1 (f b).2.2 = (g (view w.heap b)).2) :
    WF (w.act i f) ∧ (∀ v ∈ w.vals, (w.act i f).heap.cells v = w.heap.cells v) ∧
    abs (w.act i f) = (abs w).act i g := by
  obtain ⟨a, b, c⟩ := act_ok W i f (fun b hb => by
    obtain ⟨h1, h2, h3, h4, h5, _⟩ := H b hb; exact ⟨h1, h2, h3, h4, h5⟩)
  refine ⟨a, b, ?_⟩
  rw [c, PWorld.act, abs_get]
  cases hb : w.builders[i]? with
  | none => rfl
  | some o =>
    cases o with
    | none => rfl
    | some b =>
      obtain ⟨_, _, _, _, _, h6, h7⟩ := H b hb
      simp only [Option.map_some, h6, h7]

end Imt.ObjHeap
