import Verif.Model.Container
import Verif.Props.ObjB
/-! # Containers have room for everything put into them: C154 -/
namespace Imt.Props
open Imt Imt.Obj Imt.ObjB Imt.Spec Imt.Ctr

variable {τ α : Type}

theorem shrink_take (n : Nat) : ∀ (k : Nat) (c : Ctr τ), c.items.length ≤ n + k →
    Ctr.shrink c n k = { c with items := c.items.take n }
  | 0, c, h => by rw [Ctr.shrink, List.take_of_length_le (by omega)]
  | k + 1, c, h => by
    rw [Ctr.shrink]
    split
    · rename_i h1
      rw [shrink_take n k (Ctr.pop c) (by simp [Ctr.pop]; omega)]
      simp only [Ctr.pop, List.dropLast_eq_take, List.take_take]
      congr 2; omega
    · rw [List.take_of_length_le (by omega)]

/-- What the operations of a container are meant to do to its list of items; a push beyond the capacity is ignored. -/
def listStep (cap : Nat) (l : List τ) : COp τ → List τ
  | .push x => if l.length = cap then l else l ++ [x]
  | .pop => l.take (l.length - 1)
  | .clear => []
  | .shrink n => l.take n

/-- **C154.** A container is a list of at most `capacity` items: every sequence of operations does what it does to the list, and every
item constructed or destroyed lies inside the block allocated for the container. -/
theorem C154_container (hdr cap : Nat) (h : hdr + cap * 8 < 2 ^ 64) (ops : List (COp τ)) (op : COp τ) :
    let c := Ctr.run (Ctr.create cap) ops
    c.cap = cap ∧ c.items = ops.foldl (listStep cap) [] ∧ c.items.length ≤ cap ∧
    ∀ i ∈ Ctr.touches c op, hdr ≤ hdr + 8 * i ∧ hdr + 8 * i + 8 ≤ Ctr.blockSize hdr cap := by
  have key : ∀ (ops : List (COp τ)) (c : Ctr τ), c.items.length ≤ c.cap →
      (Ctr.run c ops).cap = c.cap ∧ (Ctr.run c ops).items = ops.foldl (listStep c.cap) c.items ∧
      (Ctr.run c ops).items.length ≤ c.cap := by
    intro ops
    induction ops with
    | nil => exact fun c hc => ⟨rfl, rfl, hc⟩
    | cons o ops ih =>
      intro c hc
      have h1 : (Ctr.step c o).cap = c.cap ∧ (Ctr.step c o).items = listStep c.cap c.items o ∧
          (Ctr.step c o).items.length ≤ c.cap := by
        cases o with
        | push x =>
          simp only [Ctr.step, Ctr.push, listStep]
          by_cases hl : c.items.length < c.cap
          · rw [if_pos hl, if_neg (by omega)]; exact ⟨rfl, rfl, by simp; omega⟩
          · rw [if_neg hl, if_pos (by omega)]; exact ⟨rfl, rfl, hc⟩
        | pop => exact ⟨rfl, by simp [Ctr.step, Ctr.pop, listStep, List.dropLast_eq_take], by simp [Ctr.step, Ctr.pop]; omega⟩
        | clear => exact ⟨rfl, rfl, by simp [Ctr.step, Ctr.clear]⟩
        | shrink n =>
          rw [Ctr.step, shrink_take n _ c (by omega)]
          exact ⟨rfl, rfl, by simp; omega⟩
      have h2 := ih (Ctr.step c o) (by rw [h1.1]; exact h1.2.2)
      rw [h1.1, h1.2.1] at h2
      exact h2
  obtain ⟨a, b, c⟩ := key ops (Ctr.create cap) (by simp [Ctr.create])
  refine ⟨a, b, c, ?_⟩
  simp only [Ctr.create] at a c
  intro i hi
  have hb : Ctr.blockSize hdr cap = hdr + cap * 8 := Nat.mod_eq_of_lt h
  have : i < (Ctr.run (Ctr.create cap) ops).items.length ∨
      (i = (Ctr.run (Ctr.create cap) ops).items.length ∧ i < (Ctr.run (Ctr.create cap) ops).cap) := by
    cases op with
    | push x => simp only [Ctr.touches] at hi; split at hi <;> simp at hi; exact Or.inr ⟨hi, by omega⟩
    | pop => simp only [Ctr.touches] at hi; split at hi <;> simp at hi; left; omega
    | clear => simp [Ctr.touches] at hi; exact Or.inl hi
    | shrink n => simp [Ctr.touches] at hi; exact Or.inl hi.1
  rw [hb]
  have ha : (Ctr.run (Ctr.create cap) ops).cap = cap := a
  have hc : (Ctr.run (Ctr.create cap) ops).items.length ≤ cap := c
  omega

example : (48 : Nat) + 5 * 8 < 2 ^ 64 := by decide
example : (Ctr.run (Ctr.create 2) [.push 1, .push 2, .push 3, .pop, .push 4, .shrink 1, .push 5]).items = [1, 5] := by decide

/-- **C154.** `push_back` answers truly: true exactly if the item was added, false exactly if the container stays as it was. -/
theorem C154_push (c : Ctr τ) (x : τ) :
    ((Ctr.push c x).2 = true ↔ (Ctr.push c x).1.items = c.items ++ [x]) ∧ ((Ctr.push c x).2 = false ↔ (Ctr.push c x).1 = c) := by
  unfold Ctr.push
  by_cases h : c.items.length < c.cap
  · rw [if_pos h]
    refine ⟨by simp, ⟨fun h => by simp at h, fun h => ?_⟩⟩
    have := congrArg (fun c => c.items.length) h
    simp at this
  · rw [if_neg h]
    simp

/-- **C154.** An operation constructs or destroys exactly the items by which the container grows or shrinks. -/
theorem C154_touches (c : Ctr τ) (op : COp τ) (i : Nat) :
    i ∈ Ctr.touches c op ↔ (c.items.length ≤ i ∧ i < (Ctr.step c op).items.length) ∨ ((Ctr.step c op).items.length ≤ i ∧ i < c.items.length) := by
  cases op with
  | push x =>
    simp only [Ctr.touches, Ctr.step, Ctr.push]
    split <;> simp <;> omega
  | pop =>
    simp only [Ctr.touches, Ctr.step, Ctr.pop, List.length_dropLast]
    split <;> simp <;> omega
  | clear => simp [Ctr.touches, Ctr.step, Ctr.clear]
  | shrink n =>
    rw [Ctr.step, shrink_take n _ c (by omega)]
    simp [Ctr.touches]
    omega

/-- **C154.** The containers of the builder of objects (C25) are these containers: a refused push is the one that answers false. -/
theorem C154_builder (cap : Nat) (items : Members α) (m : Bytes × α) :
    (ObjB.Cont.push ⟨cap, items⟩ m).map (fun c => (c.cap, c.items)) =
      if (Ctr.push ⟨cap, items⟩ m).2 then some ((Ctr.push ⟨cap, items⟩ m).1.cap, (Ctr.push ⟨cap, items⟩ m).1.items) else none := by
  unfold ObjB.Cont.push Ctr.push
  by_cases h : items.length < cap <;> simp [h]

example : (Ctr.push (Ctr.create 1) 5).2 = true ∧ (Ctr.push (Ctr.push (Ctr.create 1) 5).1 6).2 = false := by decide

theorem pushAll_items (l : List τ) : ∀ (c : Ctr τ), c.items.length + l.length ≤ c.cap →
    Ctr.pushAll c l = { c with items := c.items ++ l } := by
  induction l with
  | nil => intro c _; simp [Ctr.pushAll]
  | cons x l ih =>
    intro c h
    simp only [List.length_cons] at h
    have : Ctr.pushAll c (x :: l) = Ctr.pushAll (Ctr.push c x).1 l := rfl
    rw [this, Ctr.push, if_pos (by omega), ih _ (by simp; omega)]
    simp

theorem push_items (c : Ctr τ) (x : τ) (h : c.items.length < c.cap) : (Ctr.push c x).1 = { c with items := c.items ++ [x] } := by
  rw [Ctr.push, if_pos h]

theorem fold_items (p : τ → Bool) : ∀ (l : List τ) (c : Ctr τ), c.items.length + l.length ≤ c.cap →
    l.foldl (fun c v => if p v then (Ctr.push c v).1 else c) c = { c with items := c.items ++ l.filter p }
  | [], c, _ => by simp
  | x :: l, c, h => by
    simp only [List.length_cons] at h
    rw [List.foldl_cons, List.filter_cons]
    by_cases hp : p x = true
    · rw [if_pos hp, push_items c x (by omega), fold_items p l _ (by simp; omega)]
      simp [hp]
    · rw [if_neg hp, fold_items p l c (by omega)]
      simp [hp]

/-- **C154.** Arrays made from a list of values hold all of them (all defined ones, when undefined values are to be skipped). -/
theorem C154_array (isDef : τ → Bool) (skipUndef : Bool) (values : List τ) :
    (Ctr.fillArray isDef skipUndef values).items = values.filter (fun v => !skipUndef || isDef v) ∧
    (Ctr.fillView values).items = values := by
  constructor
  · rw [Ctr.fillArray, fold_items (fun v => !skipUndef || isDef v) values _ (by simp [Ctr.create])]
    simp [Ctr.create]
  · rw [Ctr.fillView, pushAll_items values _ (by simp [Ctr.create])]
    simp [Ctr.create]

theorem fillLoop_items (isDef : α → Bool) (su : Bool) : ∀ (ms : Members α) (last : Bytes) (c : Ctr (Bytes × α)) (o : Bool),
    c.items.length + ms.length ≤ c.cap →
    Ctr.fillLoop isDef su last c o ms =
      ({ c with items := (collect last c.items o (ms.filter (fun m => !su || isDef m.2))).1 },
       (collect last c.items o (ms.filter (fun m => !su || isDef m.2))).2)
  | [], last, c, o, _ => by simp [Ctr.fillLoop, collect]
  | m :: ms, last, c, o, h => by
    simp only [List.length_cons] at h
    rw [Ctr.fillLoop, List.filter_cons]
    by_cases hp : (!su || isDef m.2) = true
    · rw [if_pos hp, if_pos hp, collect]
      by_cases h1 : cmpBytes last m.1 = .gt
      · rw [if_pos h1, if_pos h1, push_items c m (by omega), fillLoop_items isDef su ms _ _ _ (by simp; omega)]
      · rw [if_neg h1, if_neg h1]
        by_cases h2 : cmpBytes last m.1 = .eq
        · rw [if_pos h2, if_pos h2]
          by_cases h3 : c.items ≠ []
          · rw [if_pos h3, if_pos h3, push_items _ m (by simp [Ctr.pop]; omega), fillLoop_items isDef su ms _ _ _ (by simp [Ctr.pop]; omega)]
            simp [Ctr.pop]
          · rw [if_neg h3, if_neg h3, push_items c m (by omega), fillLoop_items isDef su ms _ _ _ (by simp; omega)]
        · rw [if_neg h2, if_neg h2, push_items c m (by omega), fillLoop_items isDef su ms _ _ _ (by simp; omega)]
    · rw [if_neg hp, if_neg hp, fillLoop_items isDef su ms _ _ _ (by omega)]

/-- **C154.** No member is refused while an object is made from a list of members: the object is the one C23 describes. -/
theorem C154_object (isDef : α → Bool) (skipUndef : Bool) (values : Members α) :
    (Ctr.fillObject isDef skipUndef values).items = mkObject isDef skipUndef values := by
  unfold Ctr.fillObject mkObject
  rw [fillLoop_items isDef skipUndef values [] _ true (by simp [Ctr.create])]
  have hv : (values.filter (fun m => !skipUndef || isDef m.2)) = if skipUndef then values.filter (fun m => isDef m.2) else values := by
    cases skipUndef <;> simp
  rw [hv]
  simp only [Ctr.create]
  split <;> (split <;> rfl)

theorem flat_items (f : τ → List τ) (hf : ∀ x, (f x).length ≤ 1) : ∀ (l : List τ) (c : Ctr τ), c.items.length + l.length ≤ c.cap →
    l.foldl (fun c d => Ctr.pushAll c (f d)) c = { c with items := c.items ++ l.flatMap f }
  | [], c, _ => by simp
  | x :: l, c, h => by
    simp only [List.length_cons] at h
    have := hf x
    rw [List.foldl_cons, pushAll_items (f x) c (by omega), flat_items f hf l _ (by simp; omega)]
    simp

theorem diffLoop_items (isDef : α → Bool) (f : α → α → α) (cd : Bool) : ∀ (bs ds : Members α) (c : Ctr (Bytes × α)),
    c.items.length + (bs.length + ds.length) ≤ c.cap →
    Ctr.diffLoop isDef f cd bs ds c = { c with items := c.items ++ applyDiffImpl isDef f cd bs ds }
  | [], ds, c, h => by
    rw [Ctr.diffLoop, applyDiffImpl]
    exact flat_items (onlyDiff isDef cd) (onlyDiff_len1 isDef cd) ds c (by simpa using h)
  | b :: bs, [], c, h => by
    rw [Ctr.diffLoop, applyDiffImpl, mergeStep]
    exact pushAll_items _ c (by simpa using h)
  | b :: bs, d :: ds, c, h => by
    simp only [List.length_cons] at h
    have h1 := onlyDiff_len1 isDef cd d
    have h2 := bothDiff_len1 isDef f cd b d
    rw [Ctr.diffLoop, applyDiffImpl, mergeStep]
    cases hc : cmpBytes b.1 d.1 with
    | lt =>
      simp only
      rw [push_items c b (by omega), diffLoop_items isDef f cd bs (d :: ds) _ (by simp; omega)]
      simp
    | gt =>
      simp only
      rw [pushAll_items _ c (by omega), diffLoop_items isDef f cd (b :: bs) ds _ (by simp; omega), applyDiffImpl]
      simp
    | eq =>
      simp only
      rw [pushAll_items _ c (by omega), diffLoop_items isDef f cd bs ds _ (by simp; omega)]
      simp
termination_by bs ds => bs.length + ds.length

/-- **C154.** Applying the recorded changes to the base of a builder refuses no member: the result is the one C25 and C28 speak of. -/
theorem C154_applyDiff (isDef : α → Bool) (mergeFn : α → α → α) (createDiff : Bool) (bs ds : Members α) :
    (Ctr.applyDiff isDef mergeFn createDiff bs ds).items = applyDiffImpl isDef mergeFn createDiff bs ds := by
  rw [Ctr.applyDiff, diffLoop_items isDef mergeFn createDiff bs ds _ (by simp [Ctr.create])]
  simp [Ctr.create]

theorem setLoop_items (isDef : α → Bool) : ∀ (bs ds : Members α) (c : Ctr (Bytes × α)),
    c.items.length + (bs.length + ds.length) ≤ c.cap →
    Ctr.setLoop isDef bs ds c = { c with items := c.items ++ setItemsLoop isDef bs ds }
  | [], ds, c, h => by
    rw [Ctr.setLoop, setItemsLoop]
    exact fold_items (fun d : Bytes × α => isDef d.2) ds c (by simpa using h)
  | b :: bs, [], c, h => by
    rw [Ctr.setLoop, setItemsLoop, setItemsStep]
    exact pushAll_items _ c (by simpa using h)
  | b :: bs, d :: ds, c, h => by
    simp only [List.length_cons] at h
    rw [Ctr.setLoop, setItemsLoop, setItemsStep]
    cases hc : cmpBytes b.1 d.1 with
    | lt =>
      simp only
      rw [push_items c b (by omega), setLoop_items isDef bs (d :: ds) _ (by simp; omega)]
      simp
    | gt =>
      simp only
      by_cases hd : isDef d.2 = true
      · rw [if_pos hd, if_pos hd, push_items c d (by omega), setLoop_items isDef (b :: bs) ds _ (by simp; omega), setItemsLoop]
        simp
      · rw [if_neg hd, if_neg hd, setLoop_items isDef (b :: bs) ds _ (by simp; omega), setItemsLoop]
        simp
    | eq =>
      simp only
      by_cases hd : isDef d.2 = true
      · rw [if_pos hd, if_pos hd, push_items c d (by omega), setLoop_items isDef bs ds _ (by simp; omega)]
        simp
      · rw [if_neg hd, if_neg hd, setLoop_items isDef bs ds _ (by omega)]
        simp
termination_by bs ds => bs.length + ds.length

/-- **C154.** `setItems` refuses no member: the result is the one C30 speaks of. -/
theorem C154_setItems (isDef : α → Bool) (v fields : Members α) :
    (Ctr.setItems isDef v fields).items = ObjB.setItems isDef v fields := by
  rw [Ctr.setItems, setLoop_items isDef v (stableSort fields) _ (by
    have := (stableSort_perm fields).length_eq
    simp [Ctr.create]; omega)]
  simp [Ctr.create, ObjB.setItems]

/-- **C154.** A builder made from a list of fields has a canonical base with, for each key, the last defined value given for it; fields
with an undefined value count for nothing. -/
theorem C154_fields (isDef : α → Bool) (fields : Members α) :
    StrictSorted (Ctr.ofFields isDef fields).items ∧
    ∀ k, lookup (Ctr.ofFields isDef fields).items k = lastVal (fields.filter (fun m => isDef m.2)) k := by
  have h : (Ctr.ofFields isDef fields).items = Obj.sort (fields.filter (fun m => isDef m.2)) := by
    rw [Ctr.ofFields, fold_items (fun m : Bytes × α => isDef m.2) fields _ (by simp [Ctr.create])]
    simp [Ctr.sortIn, Ctr.create]
  rw [h]
  refine ⟨sort_sorted _, fun k => ?_⟩
  rw [lookup_eq_lastVal (sort_sorted _), sort_lastVal]

example : (Ctr.ofFields (· != 0) [(ascii "b", 1), (ascii "a", 2), (ascii "b", 0), (ascii "a", 5)]).items =
    [(ascii "a", 5), (ascii "b", 1)] := by decide +kernel

end Imt.Props
