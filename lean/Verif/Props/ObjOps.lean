import Verif.Model.ObjOps
import Verif.Props.ObjB
import Verif.Props.ValueOps
import Verif.Spec.Order
/-!
# Properties of map, filter, reduce and sort on members (C146)
-/
namespace Imt.Props
open Imt Imt.Obj Imt.ObjB Imt.Spec Imt.ObjOps

variable {α : Type}

theorem keyOf_bindKey (k : Bytes) (v : Item α) : keyOf (bindKey k v) = k ∧ (bindKey k v).2 = v.2 := by
  unfold bindKey
  split
  · next h => exact ⟨by simp [keyOf, h], rfl⟩
  · split
    · next h => exact ⟨h.symm, rfl⟩
    · exact ⟨rfl, rfl⟩

/-- The key under which `map` stores a result: its own key if it has one, else the key of the item. -/
theorem mapItem_spec (f : Item α → Item α) (x : Item α) :
    keyOf (mapItem f x) = (f x).1.getD (keyOf x) ∧ (mapItem f x).2 = (f x).2 := by
  unfold mapItem
  dsimp only
  cases h : (f x).1 with
  | none => simpa using keyOf_bindKey (keyOf x) (f x)
  | some k => simp [keyOf, h]

theorem foldl_map_set (isDef : α → Bool) (g : Item α → Bytes × α) (src : List (Item α)) : ∀ s : OB α,
    src.foldl (fun o x => setInternal isDef o (g x)) s = (src.map g).foldl (fun o m => setInternal isDef o m) s := by
  induction src with
  | nil => exact fun _ => rfl
  | cons x src ih => intro s; simp only [List.foldl_cons, List.map_cons]; exact ih _

theorem mapToObject_spec (f : Item α → Item α) (isDef : α → Bool) (src : List (Item α)) :
    StrictSorted (mapToObject f isDef src) ∧
    ∀ k, lookup (mapToObject f isDef src) k =
      (lastVal (src.map (fun x => ((f x).1.getD (keyOf x), (f x).2))) k).filter isDef := by
  unfold mapToObject
  rw [foldl_map_set isDef (fun x => (keyOf (mapItem f x), (mapItem f x).2))]
  have e : src.map (fun x => (keyOf (mapItem f x), (mapItem f x).2)) =
      src.map (fun x => ((f x).1.getD (keyOf x), (f x).2)) := by
    apply List.map_congr_left
    intro x _
    rw [(mapItem_spec f x).1, (mapItem_spec f x).2]
  rw [e]
  obtain ⟨a1, a2, a3, a4⟩ := foldl_set_spec isDef (src.map (fun x => ((f x).1.getD (keyOf x), (f x).2))) (inv_new (α := α))
  obtain ⟨_, _, _, _, _, b6, b7⟩ := commit_spec isDef a1
  refine ⟨b6, fun k => ?_⟩
  rw [b7, a2, a3, a4]
  have hr : recorded (new : OB α) k = none := by simp [new, recorded, lastVal, lookup]
  rw [hr]
  cases h : lastVal (src.map (fun x => ((f x).1.getD (keyOf x), (f x).2))) k with
  | none => simp [comb, new, lookup]
  | some v => cases hv : isDef v <;> simp [comb, new, lookup, hv, Option.filter]

theorem iterate_ofBase (isDef : α → Bool) (ms : Members α) : (iterate isDef (ofBase ms)).1 = ms := rfl

/-- C146: whatever the function returns, `map` of an object gives a canonical object in which a key has the last result
stored under it, unless that result is undefined; a result is stored under its own key if it carries one, otherwise
under the key of its item. -/
theorem C146_map_object (f : Item α → Item α) (isDef : α → Bool) (ms : Members α) :
    StrictSorted (objMap f isDef ms) ∧
    ∀ k, lookup (objMap f isDef ms) k =
      (lastVal ((items ms).map (fun x => ((f x).1.getD (keyOf x), (f x).2))) k).filter isDef := by
  unfold objMap
  rw [iterate_ofBase]
  exact mapToObject_spec f isDef (items ms)

theorem lookup_filterMap (g : Bytes → α → Option α) {ms : Members α} (k : Bytes) (hs : StrictSorted ms) :
    lookup (ms.filterMap (fun m => (g m.1 m.2).map (fun v => (m.1, v)))) k = (lookup ms k).bind (g k) := by
  induction ms with
  | nil => rfl
  | cons m ms ih =>
    obtain ⟨h1, h2⟩ := sorted_cons.1 hs
    rw [List.filterMap_cons, lookup_cons]
    by_cases e : m.1 = k
    · subst e
      have hn : lookup ms m.1 = none := Above.lookup h1
      cases hg : g m.1 m.2 with
      | none => simpa [hg, hn] using ih h2
      | some v => simp [lookup_cons, hg]
    · rw [if_neg e]
      cases hg : g m.1 m.2 with
      | none => simpa using ih h2
      | some v => simp only [Option.map_some]; rw [lookup_cons, if_neg e]; exact ih h2

theorem filterMap_above (g : Bytes → α → Option α) {ms : Members α} {k : Bytes} (h : Above k ms) :
    Above k (ms.filterMap (fun m => (g m.1 m.2).map (fun v => (m.1, v)))) := by
  intro m hm
  obtain ⟨x, hx, e⟩ := List.mem_filterMap.1 hm
  cases hg : g x.1 x.2 with
  | none => simp [hg] at e
  | some v => simp [hg] at e; rw [← e]; exact h x hx

theorem filterMap_sorted (g : Bytes → α → Option α) : ∀ {ms : Members α}, StrictSorted ms →
    StrictSorted (ms.filterMap (fun m => (g m.1 m.2).map (fun v => (m.1, v)))) := by
  intro ms
  induction ms with
  | nil => exact fun _ => List.Pairwise.nil
  | cons m ms ih =>
    intro hs
    obtain ⟨h1, h2⟩ := sorted_cons.1 hs
    rw [List.filterMap_cons]
    cases hg : g m.1 m.2 with
    | none => exact ih h2
    | some v => exact sorted_cons.2 ⟨filterMap_above g h1, ih h2⟩

/-- C146: "values are bound with same keys": when no result carries a foreign key, `map` of an object has exactly the
defined results, each under the key of its item. What is missing is a function whose results carry keys, see
`C146_violation_keys`. -/
theorem C146_map_keys_partial (f : Item α → Item α) (isDef : α → Bool) (ms : Members α) (hs : StrictSorted ms)
    (hf : ∀ x ∈ items ms, (f x).1 = none ∨ (f x).1 = x.1) :
    objMap f isDef ms = ms.filterMap (fun m => if isDef (f (some m.1, m.2)).2 then some (m.1, (f (some m.1, m.2)).2) else none) := by
  obtain ⟨h1, h2⟩ := C146_map_object f isDef ms
  have e : ms.filterMap (fun m => if isDef (f (some m.1, m.2)).2 then some (m.1, (f (some m.1, m.2)).2) else none) =
      ms.filterMap (fun m => ((fun k v => (some (f (some k, v)).2).filter isDef) m.1 m.2).map (fun v => (m.1, v))) := by
    apply List.filterMap_congr
    intro m _
    cases hd : isDef (f (some m.1, m.2)).2 <;> simp [Option.filter, hd]
  rw [e]
  refine eq_of_lookup_eq h1 (filterMap_sorted (fun k v => (some (f (some k, v)).2).filter isDef) hs) (fun k => ?_)
  rw [h2, lookup_filterMap (fun k v => (some (f (some k, v)).2).filter isDef) k hs]
  have e2 : (items ms).map (fun x => ((f x).1.getD (keyOf x), (f x).2)) = ms.map (fun m => (m.1, (f (some m.1, m.2)).2)) := by
    rw [items, List.map_map]
    apply List.map_congr_left
    intro m hm
    have := hf (some m.1, m.2) (List.mem_map.2 ⟨m, hm, rfl⟩)
    rcases this with h | h <;> simp [h, keyOf]
  rw [e2]
  have hl : lastVal (ms.map (fun m => (m.1, (f (some m.1, m.2)).2))) k = (lookup ms k).map (fun v => (f (some k, v)).2) := by
    rw [← lookup_eq_lastVal (by
      unfold StrictSorted
      rw [List.pairwise_map]
      exact hs)]
    clear e e2 h1 h2 hf
    induction ms with
    | nil => rfl
    | cons m ms ih =>
      rw [List.map_cons, lookup_cons, lookup_cons]
      by_cases e : m.1 = k
      · subst e; simp
      · simp only [if_neg e]; exact ih (sorted_cons.1 hs).2
  rw [hl]
  cases lookup ms k <;> simp

example : StrictSorted [(ascii "a", 1), (ascii "b", 2), (ascii "c", 3)] ∧
    (∀ x ∈ items [(ascii "a", 1), (ascii "b", 2), (ascii "c", 3)],
      ((fun (x : Item Nat) => if x.2 = 1 then (x.1, 7) else ((none : Option Bytes), x.2 - 2)) x).1 = none ∨
      ((fun (x : Item Nat) => if x.2 = 1 then (x.1, 7) else ((none : Option Bytes), x.2 - 2)) x).1 = x.1) ∧
    objMap (fun x => if x.2 = 1 then (x.1, 7) else (none, x.2 - 2)) (· != 0) [(ascii "a", 1), (ascii "b", 2), (ascii "c", 3)] =
      [(ascii "a", 7), (ascii "c", 1)] := by decide +kernel

/-- C146: a result without a key (`stripKey`) is stored under the key of the item it was made from. -/
theorem C146_stripped (f : Item α → Item α) (x : Item α) :
    keyOf (stripKey (f x)) = [] ∧ keyOf (mapItem (fun y => stripKey (f y)) x) = keyOf x ∧
      (mapItem (fun y => stripKey (f y)) x).2 = (f x).2 := by
  refine ⟨rfl, ?_⟩
  unfold mapItem
  simpa [stripKey] using keyOf_bindKey (keyOf x) (stripKey (f x))

/-- C146 is false for a function that returns a member of its item, as in `v.map([](Value x){return x["p"];})`: members
come with their key, so all results are stored under "p" and all but the last are lost. -/
theorem C146_violation_keys :
    let f : Item JV → Item JV := fun x => match x.2 with
      | .obj l => memberItem .undef l (ascii "p")
      | _ => (none, .undef)
    objMap f defd [(ascii "a", .obj [(ascii "p", .bool true)]), (ascii "b", .obj [(ascii "p", .null)])] =
      [(ascii "p", .null)] := by decide +kernel

/-- C146: mapping any container to an array gives the defined results in order; mapping any items to an object files
them under their keys, the last defined one winning. -/
theorem C146_map_target (f : Item α → Item α) (isDef : α → Bool) (undef : α) (src : List (Item α)) :
    mapToArray f isDef undef src = .ok ((src.map f).filter (fun v => isDef v.2)) ∧
    StrictSorted (mapToObject f isDef src) ∧
    ∀ k, lookup (mapToObject f isDef src) k =
      (lastVal (src.map (fun x => ((f x).1.getD (keyOf x), (f x).2))) k).filter isDef := by
  refine ⟨?_, mapToObject_spec f isDef src⟩
  unfold mapToArray
  rw [foldl_add_map f, commit_new]

/-- C146: `filter` of an object keeps exactly the members that satisfy the predicate (and are defined), under their
keys. -/
theorem C146_filter_object (p : Item α → Nat → Bool) (isDef : α → Bool) (ms : Members α) (hs : StrictSorted ms) :
    objFilter p isDef ms =
      ((ms.zipIdx.filter (fun x => p (some x.1.1, x.1.2) x.2)).map (·.1)).filter (fun m => isDef m.2) := by
  unfold objFilter
  have e : ((((items ms).zipIdx).filter (fun x => p x.1 x.2)).map (fun x => (keyOf x.1, x.1.2))) =
      (ms.zipIdx.filter (fun x => p (some x.1.1, x.1.2) x.2)).map (·.1) := by
    unfold items
    rw [List.zipIdx_map, List.filter_map, List.map_map]
    rfl
  rw [e]
  have hsub : ((ms.zipIdx.filter (fun x => p (some x.1.1, x.1.2) x.2)).map (·.1)).Sublist ms := by
    have h := (List.filter_sublist (l := ms.zipIdx) (p := fun x => p (some x.1.1, x.1.2) x.2)).map (·.1)
    rwa [List.zipIdx_map_fst] at h
  generalize (ms.zipIdx.filter (fun x => p (some x.1.1, x.1.2) x.2)).map (·.1) = l at hsub
  have hl : StrictSorted (l.filter (fun m => isDef m.2)) := List.Pairwise.sublist (List.filter_sublist.trans hsub) hs
  have := mkObject_id isDef _ hl
  unfold mkObject at this ⊢
  simpa using this

example : objFilter (fun x i => x.2 != 2 && i != 0) (· != 0) [(ascii "a", 1), (ascii "b", 2), (ascii "c", 3), (ascii "d", 0)] =
    [(ascii "c", 3)] := by decide +kernel

/-- C146: an object made of a range by a function has for each key the last value the function gave for it. -/
theorem C146_range {β : Type} (f : β → Item α) (isDef : α → Bool) (skipUndef : Bool) (l : List β) :
    StrictSorted (objRange f isDef skipUndef l) ∧
    ∀ k, lookup (objRange f isDef skipUndef l) k =
      lastVal ((l.map (fun x => (keyOf (f x), (f x).2))).filter (fun m => !skipUndef || isDef m.2)) k := by
  unfold objRange
  refine ⟨mkObject_sorted _ _ _, fun k => ?_⟩
  rw [lookup_eq_lastVal (mkObject_sorted _ _ _), mkObject_lastVal]
  cases skipUndef <;> simp [kept]

/-- C146: `reduce` of an object folds over its members in the order of their keys. -/
theorem C146_reduce {β : Type} (f : β → Item α → β) (isDef : α → Bool) (ms : Members α) (init : β) :
    objReduce f isDef ms init = ms.foldl (fun acc m => f acc (some m.1, m.2)) init := by
  unfold objReduce
  rw [iterate_ofBase, items, List.foldl_map]

theorem adds_changes (src : List (Item α)) : ∀ s : ArrB.AB (Item α), (src.foldl ArrB.add s).changes = s.changes ++ src.map some := by
  induction src with
  | nil => simp
  | cons x src ih => intro s; rw [List.foldl_cons, ih]; simp [ArrB.add]

theorem adds_new (src : List (Item α)) : src.foldl ArrB.add ArrB.new = ⟨[], src.map some, 0⟩ := by
  have h := adds_changes src ArrB.new
  have h2 := foldl_add_off src ArrB.new
  revert h h2
  cases src.foldl ArrB.add (ArrB.new : ArrB.AB (Item α)) with
  | mk b c o => simp only [ArrB.new]; intro h h2; simp_all

/-- C146: `Array::sort` and `Object::sort` give the defined items, in the order of the comparison, for every
sorting algorithm that keeps the promise of `std::sort`: for a comparison that is a weak order, a permutation in
which nothing decreases. Items keep their keys. -/
theorem C146_sort (cmp : Item α → Item α → Int) (srt : List (Item α) → List (Item α)) (isDef : α → Bool) (undef : α)
    (src : List (Item α)) (hc : Lawful cmp)
    (hsrt : Lawful cmp → (srt src).Perm src ∧ Spec.Sorted cmp (srt src)) :
    ∃ out, genSort srt isDef undef src = .ok out ∧ out.Perm (src.filter (fun v => isDef v.2)) ∧ Spec.Sorted cmp out := by
  unfold genSort
  dsimp only
  rw [adds_new]
  have e : (src.map some).filterMap id = src := by simp
  dsimp only
  rw [e]
  have e2 : (⟨[], (srt src).map some, 0⟩ : ArrB.AB (Item α)) = (srt src).foldl ArrB.add ArrB.new := (adds_new _).symm
  rw [e2, commit_new]
  exact ⟨_, rfl, (hsrt hc).1.filter _, (hsrt hc).2.filter _⟩

example : Lawful (fun a b : Item Nat => (a.2 : Int) - b.2) ∧
    (let src : List (Item Nat) := [(some (ascii "a"), 3), (none, 0), (some (ascii "b"), 1)]
     let srt : List (Item Nat) → List (Item Nat) := List.reverse ∘ fun l => [l[0]!, l[2]!, l[1]!]
     ((srt src).Perm src ∧ Spec.Sorted (fun a b : Item Nat => (a.2 : Int) - b.2) (srt src)) ∧
     genSort srt (· != 0) 0 src = .ok [(some (ascii "b"), 1), (some (ascii "a"), 3)]) :=
  ⟨⟨fun a b => by omega, fun a b c => by omega⟩, ⟨by decide +kernel, by unfold Spec.Sorted; decide +kernel⟩, by decide +kernel⟩

end Imt.Props
