import Verif.Model.Merge
import Verif.Lemmas.ObjB
import Verif.Lemmas.ArrayB
import Verif.Props.Str
/-!
# C67, C68, C83: `merge` and `diff` of values
-/
namespace Imt.Props
open Imt Imt.Obj Imt.ObjB Imt.Merge Imt.Spec

/-! ### Objects -/

/-- Value under a key after merging (before undefined members are dropped). -/
def mcomb : Option JV → Option JV → Option JV
  | none, y => y
  | x, none => x
  | some (.obj x), some (.obj y) => some (.obj (mergeObj x y))
  | some _, some w => some w

theorem mergeSets_eq {k k' : Bytes} {v w : JV} {bs ds : Members JV} (h : cmpBytes k k' = .eq) :
    ∃ z, mergeSets ((k, v) :: bs) ((k', w) :: ds) = (k, z) :: mergeSets bs ds ∧ mcomb (some v) (some w) = some z := by
  have hk : k = k' := (cmpBytes_eq_iff k k').1 h
  subst hk
  rw [mergeSets.eq_def]
  simp only [h]
  split
  · exact ⟨_, rfl, rfl⟩
  · rename_i hn
    refine ⟨w, rfl, ?_⟩
    unfold mcomb
    split <;> first | rfl | (exfalso; simp_all; done) | skip
    all_goals simp_all

theorem mergeSets_lt {k k' : Bytes} {v w : JV} {bs ds : Members JV} (h : cmpBytes k k' = .lt) :
    mergeSets ((k, v) :: bs) ((k', w) :: ds) = (k, v) :: mergeSets bs ((k', w) :: ds) := by
  rw [mergeSets.eq_def]; simp only [h]

theorem mergeSets_gt {k k' : Bytes} {v w : JV} {bs ds : Members JV} (h : cmpBytes k k' = .gt) :
    mergeSets ((k, v) :: bs) ((k', w) :: ds) = (k', w) :: mergeSets ((k, v) :: bs) ds := by
  rw [mergeSets.eq_def]; simp only [h]

theorem mergeSets_nil (ds : Members JV) : mergeSets [] ds = ds := by rw [mergeSets.eq_def]
theorem mergeSets_nil' (bs : Members JV) : mergeSets bs [] = bs := by rw [mergeSets.eq_def]; cases bs <;> rfl

/-- Generic merging of sorted lists: three equations suffice. -/
theorem sets_spec (F : Members JV → Members JV → Members JV) (c : Option JV → Option JV → Option JV)
    (hnn : c none none = none)
    (hl : ∀ ds : Members JV, StrictSorted ds → (∀ k, Above k ds → Above k (F [] ds)) ∧ StrictSorted (F [] ds) ∧ ∀ k, lookup (F [] ds) k = c none (lookup ds k))
    (hr : ∀ bs : Members JV, StrictSorted bs → (∀ k, Above k bs → Above k (F bs [])) ∧ StrictSorted (F bs []) ∧ ∀ k, lookup (F bs []) k = c (lookup bs k) none)
    (hlt : ∀ k k' v w (bs ds : Members JV), cmpBytes k k' = .lt → ∃ e : Members JV, e.length ≤ 1 ∧ (∀ m ∈ e, m.1 = k) ∧
      F ((k, v) :: bs) ((k', w) :: ds) = e ++ F bs ((k', w) :: ds) ∧ lookup e k = c (some v) none)
    (hgt : ∀ k k' v w (bs ds : Members JV), cmpBytes k k' = .gt → ∃ e : Members JV, e.length ≤ 1 ∧ (∀ m ∈ e, m.1 = k') ∧
      F ((k, v) :: bs) ((k', w) :: ds) = e ++ F ((k, v) :: bs) ds ∧ lookup e k' = c none (some w))
    (heq : ∀ k v w (bs ds : Members JV), ∃ e : Members JV, e.length ≤ 1 ∧ (∀ m ∈ e, m.1 = k) ∧
      F ((k, v) :: bs) ((k, w) :: ds) = e ++ F bs ds ∧ lookup e k = c (some v) (some w)) :
    ∀ (bs ds : Members JV), StrictSorted bs → StrictSorted ds →
      (∀ k, Above k bs → Above k ds → Above k (F bs ds)) ∧ StrictSorted (F bs ds) ∧
      ∀ k, lookup (F bs ds) k = c (lookup bs k) (lookup ds k)
  | [], ds, _, hd => ⟨fun k _ h => (hl ds hd).1 k h, (hl ds hd).2.1, (hl ds hd).2.2⟩
  | b :: bs, [], hb, _ => ⟨fun k h _ => (hr _ hb).1 k h, (hr _ hb).2.1, (hr _ hb).2.2⟩
  | (k, v) :: bs, (k', w) :: ds, hb, hd => by
    have e_above : ∀ {e : Members JV} {x y : Bytes}, (∀ m ∈ e, m.1 = x) → cmpBytes y x = .lt → Above y e :=
      fun h hx m hm => by rw [h m hm]; exact hx
    have e_lookup : ∀ {e : Members JV} {x y : Bytes}, (∀ m ∈ e, m.1 = x) → x ≠ y → lookup e y = none := by
      intro e x y h hx
      cases hc : lookup e y with
      | none => rfl
      | some z => exact absurd (h _ (lookup_mem hc)).symm hx
    have none_of : ∀ {x : Bytes} {l : Members JV}, Above x l → lookup l x = none := fun h => h.lookup
    have hb' := sorted_cons.1 hb
    have hd' := sorted_cons.1 hd
    cases hc : cmpBytes k k' with
    | lt =>
      obtain ⟨e, e1, e2, e3, e4⟩ := hlt k k' v w bs ds hc
      obtain ⟨i1, i2, i3⟩ := sets_spec F c hnn hl hr hlt hgt heq bs ((k', w) :: ds) hb'.2 hd
      have hab : Above k ((k', w) :: ds) := by
        intro m hm
        rcases List.mem_cons.1 hm with rfl | hm
        · exact hc
        · exact cmpBytes_lt_trans hc (hd'.1 m hm)
      rw [e3]
      refine ⟨?_, sorted_single_append e1 e2 i2 (i1 k hb'.1 hab), ?_⟩
      · intro x hx hy
        refine Above.append (e_above e2 (hx _ List.mem_cons_self)) (i1 x ?_ hy)
        exact fun m hm => hx m (List.mem_cons_of_mem _ hm)
      · intro x
        rw [lookup_append, i3]
        by_cases hx : k = x
        · subst hx
          rw [e4, none_of hb'.1, none_of hab, hnn, lookup_cons (k, v), if_pos rfl, Option.or_none]
        · rw [e_lookup e2 hx, lookup_cons (k, v), if_neg hx]; rfl
    | gt =>
      have hc' : cmpBytes k' k = .lt := cmp_gt_swap hc
      obtain ⟨e, e1, e2, e3, e4⟩ := hgt k k' v w bs ds hc
      obtain ⟨i1, i2, i3⟩ := sets_spec F c hnn hl hr hlt hgt heq ((k, v) :: bs) ds hb hd'.2
      have hab : Above k' ((k, v) :: bs) := by
        intro m hm
        rcases List.mem_cons.1 hm with rfl | hm
        · exact hc'
        · exact cmpBytes_lt_trans hc' (hb'.1 m hm)
      rw [e3]
      refine ⟨?_, sorted_single_append e1 e2 i2 (i1 k' hab hd'.1), ?_⟩
      · intro x hx hy
        refine Above.append (e_above e2 (hy _ List.mem_cons_self)) (i1 x hx ?_)
        exact fun m hm => hy m (List.mem_cons_of_mem _ hm)
      · intro x
        rw [lookup_append, i3]
        by_cases hx : k' = x
        · subst hx
          rw [e4, none_of hd'.1, none_of hab, hnn, lookup_cons (k', w), if_pos rfl, Option.or_none]
        · rw [e_lookup e2 hx, lookup_cons (k', w), if_neg hx]; rfl
    | eq =>
      have hk : k = k' := (cmpBytes_eq_iff k k').1 hc
      subst hk
      obtain ⟨e, e1, e2, e3, e4⟩ := heq k v w bs ds
      obtain ⟨i1, i2, i3⟩ := sets_spec F c hnn hl hr hlt hgt heq bs ds hb'.2 hd'.2
      rw [e3]
      refine ⟨?_, sorted_single_append e1 e2 i2 (i1 k hb'.1 hd'.1), ?_⟩
      · intro x hx hy
        refine Above.append (e_above e2 (hx _ List.mem_cons_self)) (i1 x ?_ ?_)
        · exact fun m hm => hx m (List.mem_cons_of_mem _ hm)
        · exact fun m hm => hy m (List.mem_cons_of_mem _ hm)
      · intro x
        rw [lookup_append, i3]
        by_cases hx : k = x
        · subst hx
          rw [e4, none_of hb'.1, none_of hd'.1, hnn, lookup_cons (k, v), lookup_cons (k, w), if_pos rfl, if_pos rfl, Option.or_none]
        · rw [e_lookup e2 hx, lookup_cons (k, v), lookup_cons (k, w), if_neg hx, if_neg hx]; rfl
termination_by bs ds => bs.length + ds.length

theorem mcomb_none (x : Option JV) : mcomb x none = x := by cases x <;> rfl

theorem lookup_single (k : Bytes) (v : JV) : lookup [(k, v)] k = some v := by simp [lookup]

theorem mergeSets_spec (a b : Members JV) (ha : StrictSorted a) (hb : StrictSorted b) :
    StrictSorted (mergeSets a b) ∧ ∀ k, lookup (mergeSets a b) k = mcomb (lookup a k) (lookup b k) := by
  refine (sets_spec mergeSets mcomb rfl ?_ ?_ ?_ ?_ ?_ a b ha hb).2
  · intro ds hd
    rw [mergeSets_nil]
    exact ⟨fun k h => h, hd, fun k => rfl⟩
  · intro bs hb
    rw [mergeSets_nil']
    exact ⟨fun k h => h, hb, fun k => (mcomb_none _).symm⟩
  · intro k k' v w bs ds h
    exact ⟨[(k, v)], by simp, by simp, mergeSets_lt h, lookup_single k v⟩
  · intro k k' v w bs ds h
    exact ⟨[(k', w)], by simp, by simp, mergeSets_gt h, lookup_single k' w⟩
  · intro k v w bs ds
    obtain ⟨z, h1, h2⟩ := mergeSets_eq (v := v) (w := w) (bs := bs) (ds := ds) (cmpBytes_self k)
    exact ⟨[(k, z)], by simp, by simp, h1, by rw [h2, lookup_single]⟩

theorem lastVal_sorted {l : Members JV} (h : StrictSorted l) (k : Bytes) : lastVal l k = lookup l k := by
  refine (lookup_eq_lastVal_nodup ?_ k).symm
  rw [List.Nodup, List.pairwise_map]
  exact h.imp (fun {a b} hab e => by rw [e, cmpBytes_self] at hab; cases hab)

theorem obj_recorded_new (L : Members JV) (h : StrictSorted L) (k : Bytes) : recorded (record defd new L) k = lookup L k := by
  have := (foldl_set_spec defd L (s := (new : OB JV)) inv_new).2.1 k
  unfold record
  rw [this, lastVal_sorted h]
  have : recorded (new : OB JV) k = none := by simp [new, recorded, lastVal, lookup]
  rw [this, Option.or_none]

theorem obj_record_inv (L : Members JV) : Inv (record defd new L) := (foldl_set_spec defd L (s := (new : OB JV)) inv_new).1

theorem obj_commit_new (L : Members JV) (h : StrictSorted L) : StrictSorted (ObjB.commit defd (record defd new L)).1 ∧
    ∀ k, lookup (ObjB.commit defd (record defd new L)).1 k = (lookup L k).filter defd := by
  obtain ⟨_, _, _, _, _, h6, h7⟩ := commit_spec defd (obj_record_inv L)
  refine ⟨h6, ?_⟩
  intro k
  rw [h7, obj_recorded_new L h]
  obtain ⟨_, _, hb, hd⟩ := foldl_set_spec defd L (s := (new : OB JV)) inv_new
  have e1 : (record defd new L).base = [] := hb
  have e2 : (record defd new L).baseDiff = false := hd
  rw [e1, e2]
  cases lookup L k with
  | none => rfl
  | some v => cases h : defd v <;> simp [comb, h, lookup, Option.filter]

theorem commitAsDiff_new (L : Members JV) (h : StrictSorted L) : StrictSorted (ObjB.commitAsDiff defd (record defd new L)).1 ∧
    ∀ k, lookup (ObjB.commitAsDiff defd (record defd new L)).1 k = lookup L k := by
  obtain ⟨_, h2, h3⟩ := commitAsDiff_spec defd (obj_record_inv L)
  exact ⟨h2, fun k => by rw [h3, obj_recorded_new L h]⟩

/-- **C67.** Merging of objects: the result is sorted; under each key is the value of the other object if there is one (removed if
that is undefined), merged recursively if both values are objects; otherwise the original value. -/
theorem C67_object (a b : Members JV) (ha : StrictSorted a) (hb : StrictSorted b) :
    StrictSorted (mergeObj a b) ∧
    ∀ k, lookup (mergeObj a b) k =
      (match lookup a k, lookup b k with
        | some (.obj x), some (.obj y) => some (.obj (mergeObj x y))
        | _, some w => if defd w then some w else none
        | some v, none => if defd v then some v else none
        | none, none => none) := by
  obtain ⟨h1, h2⟩ := mergeSets_spec a b ha hb
  obtain ⟨h3, h4⟩ := obj_commit_new _ h1
  refine ⟨h3, ?_⟩
  intro k
  rw [mergeObj, h4, h2]
  cases e1 : lookup a k with
  | none => cases e2 : lookup b k with
    | none => rfl
    | some w => cases w <;> rfl
  | some v => cases e2 : lookup b k with
    | none => cases v <;> rfl
    | some w => cases v <;> cases w <;> rfl

example : let a : Members JV := [([97], .num (.uint 1)), ([98], .obj [([120], .null)]), ([99], .null)]
    let b : Members JV := [([98], .obj [([121], .bool true)]), ([99], .undef), ([100], .str [])]
    StrictSorted a ∧ StrictSorted b ∧
    lookup (mergeObj a b) [99] = none ∧ lookup (mergeObj a b) [97] = some (.num (.uint 1)) := by
  intro a b
  have ha : StrictSorted a := by decide
  have hb : StrictSorted b := by decide
  refine ⟨ha, hb, ?_, ?_⟩ <;> rw [(C67_object a b ha hb).2] <;> rfl

/-! ### The other types -/

theorem mergeArr_defined (eq : JV → JV → Bool) (b : List JV) (hb : ∀ v ∈ b, defd v = true) : ∀ (p : ArrB.AB JV) (base l : List JV),
    ArrB.Rep p base l → ∃ p', mergeArr eq b p = .ok p' ∧ ArrB.Rep p' base (l ++ b) := by
  induction b with
  | nil => intro p base l h; exact ⟨p, rfl, by simpa using h⟩
  | cons v b ih =>
    intro p base l h
    rw [mergeArr, if_pos (hb v List.mem_cons_self)]
    obtain ⟨p', h1, h2⟩ := ih (fun x hx => hb x (List.mem_cons_of_mem _ hx)) _ _ _ (ArrB.rep_add h v)
    exact ⟨p', h1, by simpa using h2⟩

/-- **C67.** Arrays without undefined items are concatenated, strings are concatenated, values of different types give undefined. -/
theorem C67_scalars (eq : JV → JV → Bool) (add : JNum → JNum → JV) :
    (∀ a b : List JV, (∀ v ∈ a, defd v = true) → (∀ v ∈ b, defd v = true) → merge eq add (.arr a) (.arr b) = .ok (.arr (a ++ b))) ∧
    (∀ a b : Bytes, merge eq add (.str a) (.str b) = .ok (.str (a ++ b))) ∧
    (∀ a b : Members JV, merge eq add (.obj a) (.obj b) = .ok (.obj (mergeObj a b))) ∧
    (∀ a b : Bool, merge eq add (.bool a) (.bool b) = .ok (.bool (xor a b))) := by
  refine ⟨?_, ?_, fun _ _ => rfl, ?_⟩
  · intro a b ha hb
    obtain ⟨p, h1, h2⟩ := mergeArr_defined eq b hb _ _ _ (ArrB.rep_ofBase a)
    have h3 := ArrB.rep_commit_def h2 defd .undef ha
    rw [List.filter_eq_self.2 (by
      intro v hv
      rcases List.mem_append.1 hv with h | h
      · exact ha v h
      · exact hb v h)] at h3
    simp only [Merge.merge, h1]
    show (do let x ← ArrB.commit defd .undef p; pure (JV.arr x)) = _
    rw [h3]; rfl
  · intro a b
    simp only [Merge.merge, C82_concat]
    simp
  · intro a b; cases a <;> cases b <;> rfl

example : ∀ v ∈ [JV.null, .arr [.undef]], defd v = true := by decide

/-- Type of a value, as `Value::type()` distinguishes them. -/
def kind : JV → Nat
  | .undef => 0 | .null => 1 | .bool _ => 2 | .num _ => 3 | .str _ => 4 | .arr _ => 5 | .obj _ => 6

/-- **C67.** Values of different types do not merge (nor have a difference). -/
theorem C67_mismatch (eq : JV → JV → Bool) (add : JNum → JNum → JV) (fuel : Nat) (a b : JV) (h : kind a ≠ kind b) :
    merge eq add a b = .ok .undef ∧ diff eq add fuel a b = .ok .undef := by
  cases a <;> cases b <;> first | exact ⟨rfl, rfl⟩ | exact absurd rfl h

example : kind (.arr []) ≠ kind (.obj []) ∧ kind (.str []) ≠ kind .null := by decide

/-- Exact equality, for the examples. -/
def exactEq (a b : JV) : Bool := decide (a = b)

/-- Number for the examples. -/
def n' (k : Nat) : JV := .num (.uint k)

/-! ### Arrays with edits -/

/-- The first item from `start` on that equals `v`, else the first one in front of it. -/
def place (eq : JV → JV → Bool) (l : List JV) (v : JV) (start : Nat) : Option Nat :=
  match (l.drop start).findIdx? (eq · v) with
  | some i => some (start + i)
  | none => (l.take start).findIdx? (eq · v)

/-- Edits of a list: each pair names an item and what is inserted in front of it, undefined to remove the item; the search goes on
behind the item inserted last. `none`: the place of the last insertion is gone and the item is not there. -/
def editList (eq : JV → JV → Bool) : List JV → Nat → List JV → Option (List JV)
  | find :: ins :: r, last, l =>
    match place eq l find last with
    | some i => if ins = .undef then editList eq r last (l.eraseIdx i) else editList eq r (i + 1) (l.insertIdx i ins)
    | none => if l.length < last then none else editList eq r last (if ins = .undef then l else l ++ [ins])
  | _, _, l => some l

theorem findLoop_list (eq : JV → JV → Bool) {p : ArrB.AB JV} {base l : List JV} (h : ArrB.Rep p base l) (v : JV) : ∀ (n i : Nat),
    findLoop eq p v n i =
      match ((l.drop i).take n).findIdx? (eq · v) with
      | some j => .ok (some (i + j))
      | none => if l.length < i + n ∧ 0 < n then .err else .ok none
  | 0, i => by simp [findLoop]
  | n + 1, i => by
    rw [findLoop]
    by_cases hi : i < l.length
    · rw [ArrB.rep_get h _ hi]
      show (if eq l[i] v then pure (some i) else findLoop eq p v n (i + 1)) = _
      rw [findLoop_list eq h v n (i + 1), List.drop_eq_getElem_cons hi, List.take_succ_cons, List.findIdx?_cons]
      by_cases he : eq l[i] v = true
      · rw [if_pos he, he]; rfl
      · rw [if_neg he]
        rw [Bool.not_eq_true] at he
        rw [he]
        cases ((l.drop (i + 1)).take n).findIdx? (eq · v) with
        | some j => simp; omega
        | none =>
          simp only [Bool.false_eq_true, if_false, Option.map_none]
          by_cases hn : n = 0
          · subst hn
            rw [if_neg (by omega), if_neg (by omega)]
          · have e : (l.length < i + 1 + n ∧ 0 < n) ↔ (l.length < i + (n + 1) ∧ 0 < n + 1) := by omega
            simp only [e]
    · rw [ArrB.get_out h _ (by omega), List.drop_of_length_le (by omega)]
      simp only [List.take_nil, List.findIdx?_nil]
      rw [if_pos (by omega)]
      rfl

theorem findInArray_spec (eq : JV → JV → Bool) {p : ArrB.AB JV} {base l : List JV} (h : ArrB.Rep p base l) (v : JV) (start : Nat) :
    findInArray eq p v start =
      match place eq l v start with
      | some i => .ok (some i)
      | none => if l.length < start then .err else .ok none := by
  have e : (l.drop start).take (l.length - start) = l.drop start := List.take_of_length_le (by simp)
  unfold findInArray place
  rw [findLoop_list eq h v, findLoop_list eq h v, h.size, e, List.drop_zero]
  cases (l.drop start).findIdx? (eq · v) with
  | some j => rfl
  | none =>
    dsimp only
    rw [if_neg (by omega)]
    show (match (l.take start).findIdx? (eq · v) with
      | some j => Res.ok (some (0 + j))
      | none => if l.length < 0 + start ∧ 0 < start then .err else .ok none) = _
    cases (l.take start).findIdx? (eq · v) with
    | some j => simp
    | none =>
      dsimp only
      have e : (l.length < 0 + start ∧ 0 < start) ↔ l.length < start := by omega
      simp only [e]

theorem place_lt {eq : JV → JV → Bool} {l : List JV} {v : JV} {start i : Nat} (h : place eq l v start = some i) : i < l.length := by
  unfold place at h
  split at h
  · rename_i j hj
    have := (List.findIdx?_eq_some_iff_getElem.1 hj).1
    rw [List.length_drop] at this
    cases h
    omega
  · have := (List.findIdx?_eq_some_iff_getElem.1 h).1
    rw [List.length_take] at this
    omega

theorem insertIdx_split {α : Type} (v : α) : ∀ (l : List α) (i : Nat), i ≤ l.length → l.insertIdx i v = l.take i ++ v :: l.drop i
  | [], 0, _ => rfl
  | [], i + 1, h => by simp at h
  | _ :: _, 0, _ => rfl
  | a :: l, i + 1, h => by simp [List.insertIdx_succ_cons, insertIdx_split v l i (by simpa using h)]

theorem mergeEdits_spec (eq : JV → JV → Bool) (base : List JV) : ∀ (es : List JV) (last : Nat) (p : ArrB.AB JV) (l : List JV),
    ArrB.Rep p base l → (∀ x ∈ l, defd x = true) →
    match editList eq es last l with
    | some l' => ∃ p', mergeEdits eq es last p = .ok p' ∧ ArrB.Rep p' base l' ∧ ∀ x ∈ l', defd x = true
    | none => mergeEdits eq es last p = .err
  | [], last, p, l, h, hd => ⟨p, by simp [mergeEdits], h, hd⟩
  | [_], last, p, l, h, hd => ⟨p, by simp [mergeEdits], h, hd⟩
  | find :: ins :: r, last, p, l, h, hd => by
    rw [editList, mergeEdits, findInArray_spec eq h]
    cases hp : place eq l find last with
    | some i =>
      dsimp only
      have hi := place_lt hp
      by_cases hu : ins = .undef
      · subst hu
        rw [if_pos rfl]
        obtain ⟨p1, h1, h2⟩ := ArrB.rep_erase h .undef hi
        have hb : (do let q ← ArrB.erase .undef p i; mergeEdits eq r last q) = mergeEdits eq r last p1 := by rw [h1]; rfl
        rw [← List.eraseIdx_eq_take_drop_succ] at h2
        have := mergeEdits_spec eq base r last p1 _ h2 (fun x hx => hd x (List.mem_of_mem_eraseIdx hx))
        rw [← hb] at this
        exact this
      · rw [if_neg hu]
        have hdi : defd ins = true := by cases ins <;> first | rfl | exact absurd rfl hu
        obtain ⟨p1, h1, h2⟩ := ArrB.rep_insert h .undef (Nat.le_of_lt hi) ins
        have hb : (do let q ← ArrB.insert .undef p i ins; mergeEdits eq r (i + 1) q) = mergeEdits eq r (i + 1) p1 := by rw [h1]; rfl
        rw [← insertIdx_split ins l i (Nat.le_of_lt hi)] at h2
        have := mergeEdits_spec eq base r (i + 1) p1 _ h2 (by
          intro x hx
          rcases List.eq_or_mem_of_mem_insertIdx hx with rfl | hx
          · exact hdi
          · exact hd x hx)
        rw [← hb] at this
        show match editList eq r (i + 1) (l.insertIdx i ins) with
          | some l' => ∃ p', (if defd ins then _ else _) = Res.ok p' ∧ _
          | none => (if defd ins then _ else _) = Res.err
        rw [if_pos hdi]
        exact this
    | none =>
      dsimp only
      by_cases hl : l.length < last
      · rw [if_pos hl, if_pos hl]
        rfl
      · rw [if_neg hl, if_neg hl]
        by_cases hu : ins = .undef
        · subst hu
          rw [if_pos rfl]
          exact mergeEdits_spec eq base r last p l h hd
        · rw [if_neg hu]
          have hdi : defd ins = true := by cases ins <;> first | rfl | exact absurd rfl hu
          have := mergeEdits_spec eq base r last _ _ (ArrB.rep_add h ins) (by
            intro x hx
            rcases List.mem_append.1 hx with hx | hx
            · exact hd x hx
            · rw [List.mem_singleton.1 hx]; exact hdi)
          show match editList eq r last (l ++ [ins]) with
            | some l' => ∃ p', mergeEdits eq r last (if defd ins then _ else _) = Res.ok p' ∧ _
            | none => mergeEdits eq r last (if defd ins then _ else _) = Res.err
          rw [if_pos hdi]
          exact this

theorem mergeArr_append (eq : JV → JV → Bool) (es : List JV) : ∀ (b : List JV) (p : ArrB.AB JV), (∀ v ∈ b, defd v = true) →
    mergeArr eq (b ++ .undef :: es) p = mergeEdits eq es 0 (b.foldl ArrB.add p)
  | [], p, _ => by rw [List.nil_append, mergeArr, if_neg (by decide)]; rfl
  | v :: b, p, h => by
    rw [List.cons_append, mergeArr, if_pos (h v List.mem_cons_self)]
    exact mergeArr_append eq es b _ (fun x hx => h x (List.mem_cons_of_mem _ hx))

theorem rep_addAll {base : List JV} : ∀ (b : List JV) (p : ArrB.AB JV) (l : List JV), ArrB.Rep p base l → ArrB.Rep (b.foldl ArrB.add p) base (l ++ b)
  | [], p, l, h => by simpa using h
  | v :: b, p, l, h => by
    have := rep_addAll b _ _ (ArrB.rep_add h v)
    simpa using this

/-- **C67, arrays.** The items in front of the first undefined one are appended; what is behind it edits the result pair by pair. -/
theorem C67_edits (eq : JV → JV → Bool) (add : JNum → JNum → JV) (a b es : List JV) (ha : ∀ v ∈ a, defd v = true) (hb : ∀ v ∈ b, defd v = true) :
    merge eq add (.arr a) (.arr (b ++ .undef :: es)) =
      match editList eq es 0 (a ++ b) with
      | some l => .ok (.arr l)
      | none => .err := by
  have hr := rep_addAll b _ _ (ArrB.rep_ofBase a)
  have := mergeEdits_spec eq a es 0 _ _ hr (by
    intro v hv
    rcases List.mem_append.1 hv with h | h
    · exact ha v h
    · exact hb v h)
  simp only [Merge.merge, mergeArr_append eq es b _ hb]
  cases he : editList eq es 0 (a ++ b) with
  | none => rw [he] at this; rw [this]; rfl
  | some l =>
    rw [he] at this
    obtain ⟨p', h1, h2, h3⟩ := this
    have h4 := ArrB.rep_commit_def h2 defd .undef ha
    rw [List.filter_eq_self.2 h3] at h4
    rw [h1]
    show (do let x ← ArrB.commit defd .undef p'; pure (JV.arr x)) = _
    rw [h4]; rfl

/-- Insertions go on behind the last one: `[1,2,1]` with `1 → 8`, `1 → 9`, then 2 removed, then 5 (absent) → 6. -/
example : merge exactEq (fun _ _ => .undef) (.arr [n' 1, n' 2]) (.arr [n' 1, .undef, n' 1, n' 8, n' 1, n' 9, n' 2, .undef, n' 5, n' 6]) =
    .ok (.arr [n' 8, n' 9, n' 1, n' 1, n' 6]) := by decide +kernel

/-- **C67, violation.** Merging a diff of an array may fail: after two removals the remembered position lies behind the end and the
search wraps around over items that do not exist (`std::out_of_range` of `vector::at`). -/
theorem C67_violation_diff_array :
    merge exactEq (fun _ _ => .undef) (.arr [n' 1, n' 2, n' 3])
      (.arr [.undef, n' 2, n' 9, n' 1, .undef, n' 9, .undef, n' 2, .undef, n' 7, .undef]) = .err := by decide +kernel

/-! ### C83: merging the difference of objects gives the other object -/

theorem diffSets_nil (neq : JV → JV → Bool) (ds : Members JV) : diffSets neq [] ds = ds := by rw [diffSets.eq_def]
theorem diffSets_nil' (neq : JV → JV → Bool) (bs : Members JV) : diffSets neq bs [] = bs.map (fun m => (m.1, JV.undef)) := by
  rw [diffSets.eq_def]; cases bs <;> rfl
theorem diffSets_lt (neq : JV → JV → Bool) {k k' : Bytes} {v w : JV} {bs ds : Members JV} (h : cmpBytes k k' = .lt) :
    diffSets neq ((k, v) :: bs) ((k', w) :: ds) = (k, .undef) :: diffSets neq bs ((k', w) :: ds) := by
  rw [diffSets.eq_def]; simp only [h]
theorem diffSets_gt (neq : JV → JV → Bool) {k k' : Bytes} {v w : JV} {bs ds : Members JV} (h : cmpBytes k k' = .gt) :
    diffSets neq ((k, v) :: bs) ((k', w) :: ds) = (k', w) :: diffSets neq ((k, v) :: bs) ds := by
  rw [diffSets.eq_def]; simp only [h]

/-- What the difference says about a key. -/
def dcombO (neq : JV → JV → Bool) : Option JV → Option JV → Option JV
  | none, y => y
  | some _, none => some .undef
  | some (.obj x), some (.obj y) => if diffObj neq x y = [] then none else some (.obj (diffObj neq x y))
  | some v, some w => if neq v w then some w else none

theorem diffSets_eq (neq : JV → JV → Bool) (k : Bytes) (v w : JV) (bs ds : Members JV) :
    ∃ e : Members JV, e.length ≤ 1 ∧ (∀ m ∈ e, m.1 = k) ∧
      diffSets neq ((k, v) :: bs) ((k, w) :: ds) = e ++ diffSets neq bs ds ∧ lookup e k = dcombO neq (some v) (some w) := by
  rw [diffSets.eq_def]
  simp only [cmpBytes_self]
  refine ⟨_, ?_, ?_, rfl, ?_⟩
  · split
    · split <;> simp
    · split <;> simp
  · split
    · split <;> simp
    · split <;> simp
  · split
    · rename_i x y
      change lookup (if diffObj neq x y = [] then [] else [(k, JV.obj (diffObj neq x y))]) k =
        if diffObj neq x y = [] then (none : Option JV) else some (.obj (diffObj neq x y))
      by_cases h : diffObj neq x y = []
      · rw [if_pos h, if_pos h]; rfl
      · rw [if_neg h, if_neg h, lookup_single]
    · rename_i hn
      have e : dcombO neq (some v) (some w) = if neq v w then some w else none := by
        cases v <;> cases w <;> first | rfl | exact (hn _ _ rfl rfl).elim
      rw [e]
      split
      · exact lookup_single k w
      · rfl

theorem diffSets_spec (neq : JV → JV → Bool) (a b : Members JV) (ha : StrictSorted a) (hb : StrictSorted b) :
    StrictSorted (diffSets neq a b) ∧ ∀ k, lookup (diffSets neq a b) k = dcombO neq (lookup a k) (lookup b k) := by
  refine (sets_spec (diffSets neq) (dcombO neq) rfl ?_ ?_ ?_ ?_ ?_ a b ha hb).2
  · intro ds hd
    rw [diffSets_nil]
    exact ⟨fun k h => h, hd, fun k => rfl⟩
  · intro bs hb
    rw [diffSets_nil']
    refine ⟨fun k h => map_undef_above _ h, map_undef_sorted _ bs hb, fun k => ?_⟩
    rw [map_undef_lookup]
    cases lookup bs k <;> rfl
  · intro k k' v w bs ds h
    exact ⟨[(k, .undef)], by simp, by simp, diffSets_lt neq h, lookup_single k .undef⟩
  · intro k k' v w bs ds h
    exact ⟨[(k', w)], by simp, by simp, diffSets_gt neq h, lookup_single k' w⟩
  · exact diffSets_eq neq

theorem diffObj_spec (neq : JV → JV → Bool) (a b : Members JV) (ha : StrictSorted a) (hb : StrictSorted b) :
    StrictSorted (diffObj neq a b) ∧ ∀ k, lookup (diffObj neq a b) k = dcombO neq (lookup a k) (lookup b k) := by
  obtain ⟨h1, h2⟩ := diffSets_spec neq a b ha hb
  obtain ⟨h3, h4⟩ := commitAsDiff_new _ h1
  exact ⟨h3, fun k => by rw [diffObj, h4, h2]⟩

/-- Objects as the library makes them: sorted, without undefined members, at all levels of objects. -/
inductive GoodObj : Members JV → Prop where
  | mk {l : Members JV} (hs : StrictSorted l) (hd : ∀ m ∈ l, defd m.2 = true)
      (hr : ∀ m ∈ l, ∀ x, m.2 = .obj x → GoodObj x) : GoodObj l

theorem mergeObj_nil {a : Members JV} (h : GoodObj a) : mergeObj a [] = a := by
  cases h with
  | mk hs hd hr =>
    obtain ⟨h1, h2⟩ := C67_object a [] hs List.Pairwise.nil
    apply eq_of_lookup_eq h1 hs
    intro k
    rw [h2]
    cases e : lookup a k with
    | none => rfl
    | some v =>
      have := hd _ (lookup_mem e)
      cases v <;> first | rfl | cases this

/-- **C83 (partial).** Merging the difference of two objects into the first one gives the second one, when `operator==` holds for
identical values only. Missing: arrays (below) and the difference of values equal under `operator==` but not identical. -/
theorem C83_object_partial (neq : JV → JV → Bool) (hn : ∀ x y, neq x y = false → x = y) (a b : Members JV)
    (ha : GoodObj a) (hb : GoodObj b) : mergeObj a (diffObj neq a b) = b := by
  induction ha generalizing b with
  | @mk a hs hd hr ih =>
    have hb0 := hb
    cases hb with
    | mk hs' hd' hr' =>
      obtain ⟨d1, d2⟩ := diffObj_spec neq a b hs hs'
      obtain ⟨h1, h2⟩ := C67_object a _ hs d1
      apply eq_of_lookup_eq h1 hs'
      intro k
      rw [h2, d2]
      cases e1 : lookup a k with
      | none => cases e2 : lookup b k with
        | none => rfl
        | some w =>
          have := hd' _ (lookup_mem e2)
          simp only [dcombO]
          cases w <;> first | rfl | cases this
      | some v =>
        have hdv : defd v = true := hd _ (lookup_mem e1)
        cases e2 : lookup b k with
        | none => cases v <;> rfl
        | some w =>
          have hdw : defd w = true := hd' _ (lookup_mem e2)
          by_cases hO : ∃ x y, v = .obj x ∧ w = .obj y
          · obtain ⟨x, y, rfl, rfl⟩ := hO
            have hx := hr _ (lookup_mem e1) x rfl
            have hy := hr' _ (lookup_mem e2) y rfl
            have h3 := ih _ (lookup_mem e1) x rfl y hy
            simp only [dcombO]
            by_cases hz : diffObj neq x y = []
            · rw [if_pos hz]
              rw [hz, mergeObj_nil hx] at h3
              rw [h3]; rfl
            · rw [if_neg hz]
              simp only [h3]
          · have e3 : dcombO neq (some v) (some w) = if neq v w then some w else none := by
              cases v <;> cases w <;> first | rfl | exact (hO ⟨_, _, rfl, rfl⟩).elim
            rw [e3]
            cases hne : neq v w with
            | true =>
              rw [if_pos rfl]
              cases v <;> cases w <;> first | rfl | exact (hO ⟨_, _, rfl, rfl⟩).elim | cases hdw
            | false =>
              rw [if_neg (by simp)]
              rw [hn v w hne] at hdv ⊢
              cases w <;> first | rfl | cases hdv

example : GoodObj [([97], .obj [([98], .null)]), ([99], n' 1)] := by
  refine .mk (by decide) (by decide) ?_
  intro m hm x hx
  simp only [List.mem_cons, List.not_mem_nil, or_false] at hm
  rcases hm with rfl | rfl
  · cases hx
    refine .mk (by decide) (by decide) ?_
    intro m hm x hx
    simp only [List.mem_cons, List.not_mem_nil, or_false] at hm
    subst hm; cases hx
  · cases hx

/-- **C83, violation.** For arrays with repeated items: the difference of `[1,1]` and `[1,2]`, merged into `[1,1]`, gives `[2,1]`. -/
theorem C83_violation_array :
    diff exactEq (fun _ _ => .undef) 10 (.arr [n' 1, n' 1]) (.arr [n' 1, n' 2]) =
      .ok (.arr [.undef, n' 1, n' 2, n' 1, .undef]) ∧
    merge exactEq (fun _ _ => .undef) (.arr [n' 1, n' 1]) (.arr [.undef, n' 1, n' 2, n' 1, .undef]) =
      .ok (.arr [n' 2, n' 1]) := by decide +kernel

/-- **C83, violation.** For strings the difference removes a suffix: `"ab" - "b"` merged into `"ab"` is not `"b"`. -/
theorem C83_violation_string :
    diff exactEq (fun _ _ => .undef) 10 (.str [97, 98]) (.str [98]) = .ok (.str [97]) ∧
    merge exactEq (fun _ _ => .undef) (.str [97, 98]) (.str [97]) = .ok (.str [97, 98, 97]) := by decide +kernel

/-! ### C68: the difference of arrays -/

theorem tailO_fuel (b : List JV) (o : Nat) (h : o < b.length) : ∀ fuel t app, tailO b fuel t o app = .fuel
  | 0, t, app => by rw [tailO, if_pos h]
  | fuel + 1, t, app => by rw [tailO, if_pos h]; exact tailO_fuel b o h fuel _ _

theorem tailT_fuel (a : List JV) (t : Nat) (h : t < a.length) : ∀ fuel o d, tailT a fuel t o d = .fuel
  | 0, o, d => by rw [tailT, if_pos h]
  | fuel + 1, o, d => by rw [tailT, if_pos h]; exact tailT_fuel a t h fuel _ _

theorem tailO_done (b : List JV) (o : Nat) (h : ¬ o < b.length) (fuel t : Nat) (app : List JV) : tailO b fuel t o app = .ok (t, app) := by
  cases fuel <;> rw [tailO, if_neg h]
theorem tailT_done (a : List JV) (t : Nat) (h : ¬ t < a.length) (fuel o : Nat) (d : List JV) : tailT a fuel t o d = .ok d := by
  cases fuel <;> rw [tailT, if_neg h]

/-- C68, strings: the difference of a text and its ending is what precedes the ending; for other texts it is the text itself. -/
theorem C68_string (a b : Bytes) :
    (∀ p, a = p ++ b → diffStr a b = p) ∧ (¬ b <:+ a → diffStr a b = a) := by
  unfold diffStr VOps.substr
  refine ⟨?_, fun h => ?_⟩
  · rintro p rfl
    rw [if_neg (by simp), if_pos]
    · simp
    · simp [List.take_of_length_le]
  · split
    · rfl
    · rename_i hl
      rw [if_neg]
      intro e
      apply h
      rw [← e, List.take_of_length_le (by simp)]
      exact List.drop_suffix _ _

example : diffStr (ascii "file.txt") (ascii ".txt") = ascii "file" ∧ ¬ ascii ".cpp" <:+ ascii "file.txt" := by decide +kernel

/-- **C68.** `diff` of two arrays terminates exactly when the main loop reaches the ends of both arrays; otherwise it runs for
ever (whatever number of iterations is allowed). -/
theorem C68_terminates_iff (eq : JV → JV → Bool) (a b : List JV) :
    (∃ fuel r, diffArr eq fuel a b = .ok r) ↔
      (a.length ≤ (diffMain eq a b 0 0 []).2.1 ∧ b.length ≤ (diffMain eq a b 0 0 []).2.2) := by
  unfold diffArr
  cases e : diffMain eq a b 0 0 [] with
  | mk d rest =>
    obtain ⟨t, o⟩ := rest
    dsimp only
    constructor
    · rintro ⟨fuel, r, h⟩
      by_cases ho : o < b.length
      · rw [tailO_fuel b o ho] at h; cases h
      · rw [tailO_done b o ho] at h
        by_cases ht : t < a.length
        · change (do let diff ← tailT a fuel t o d; pure _) = _ at h
          rw [tailT_fuel a t ht] at h; cases h
        · omega
    · rintro ⟨h1, h2⟩
      refine ⟨0, if d = [] then [] else [] ++ JV.undef :: d, ?_⟩
      rw [tailO_done b o (by omega)]
      change (do let diff ← tailT a 0 t o d; pure _) = _
      rw [tailT_done a t (by omega)]
      rfl

theorem diffMain_prefix (eq : JV → JV → Bool) (hr : ∀ x, defd x = true → eq x x = true) (a : List JV) (hd : ∀ v ∈ a, defd v = true)
    (c b : List JV) (h : (∃ y, a = c ++ y ∧ c = b) ∨ (∃ y, b = c ++ y ∧ c = a)) : ∀ n i d, i + n = c.length →
    diffMain eq a b i i d = (d, c.length, c.length) := by
  intro n
  have hca : c.length ≤ a.length := by rcases h with ⟨y, rfl, rfl⟩ | ⟨y, rfl, rfl⟩ <;> simp
  have hcb : c.length ≤ b.length := by rcases h with ⟨y, rfl, rfl⟩ | ⟨y, rfl, rfl⟩ <;> simp
  have hga : ∀ i, i < c.length → a.getD i .undef = b.getD i .undef := by
    intro i hi
    rcases h with ⟨y, rfl, rfl⟩ | ⟨y, rfl, rfl⟩
    · simp [List.getD_eq_getElem?_getD, List.getElem?_append_left hi]
    · simp [List.getD_eq_getElem?_getD, List.getElem?_append_left hi]
  have hend : ¬ (c.length < a.length ∧ c.length < b.length) := by
    rcases h with ⟨y, rfl, rfl⟩ | ⟨y, rfl, rfl⟩ <;> omega
  induction n with
  | zero =>
    intro i d hi
    have hi : i = c.length := by omega
    subst hi
    rw [diffMain.eq_def, dif_neg hend]
  | succ n ih =>
    intro i d hi
    rw [diffMain.eq_def, dif_pos (by omega)]
    have hm : a.getD i .undef ∈ a := by
      rw [List.getD_eq_getElem?_getD, List.getElem?_eq_getElem (by omega)]
      exact List.getElem_mem _
    have he := hr _ (hd _ hm)
    have h2 := hga i (by omega)
    simp only
    rw [← h2, if_pos he]
    exact ih (i + 1) d (by omega)

/-- **C68 (partial).** The difference of an array and itself is the empty array. Missing: the general case, which does not hold. -/
theorem C68_same_partial (eq : JV → JV → Bool) (hr : ∀ x, defd x = true → eq x x = true) (a : List JV) (hd : ∀ v ∈ a, defd v = true)
    (fuel : Nat) : diffArr eq fuel a a = .ok [] := by
  unfold diffArr
  rw [diffMain_prefix eq hr a hd a a (Or.inl ⟨[], by simp, rfl⟩) a.length 0 [] (by omega)]
  dsimp only
  rw [tailO_done _ _ (by omega)]
  change (do let diff ← tailT a fuel a.length a.length []; pure _) = _
  rw [tailT_done _ _ (by omega)]
  rfl

/-- How items of two arrays correspond: `a` becomes `b` by keeping equal items, removing items and adding items, and `d` records
the changes in order: removed item and undefined, or the next item and the added item. -/
inductive Edits (eq : JV → JV → Bool) : List JV → List JV → List JV → Prop where
  | nil : Edits eq [] [] []
  | keep {a b d x y} : Edits eq a b d → eq x y = true → Edits eq (a ++ [x]) (b ++ [y]) d
  | remove {a b d} (x) : Edits eq a b d → Edits eq (a ++ [x]) b (d ++ [x, .undef])
  | add {a b d} (x y) : Edits eq a b d → Edits eq a (b ++ [y]) (d ++ [x, y])

theorem take_getD (a : List JV) (t : Nat) (h : t < a.length) : a.take (t + 1) = a.take t ++ [a.getD t .undef] := by
  rw [List.take_add_one, List.getElem?_eq_getElem h]
  simp [List.getD, List.getElem?_eq_getElem h]

theorem diffMain_edits (eq : JV → JV → Bool) (a b : List JV) (t o : Nat) (d : List JV) (h : Edits eq (a.take t) (b.take o) d) :
    Edits eq (a.take (diffMain eq a b t o d).2.1) (b.take (diffMain eq a b t o d).2.2) (diffMain eq a b t o d).1 := by
  induction t, o, d using diffMain.induct eq a b with
  | case1 t o d hlt x y he ih =>
    rw [diffMain.eq_def, dif_pos hlt]; dsimp only
    rw [if_pos he]
    exact ih (by rw [take_getD a t hlt.1, take_getD b o hlt.2]; exact .keep h he)
  | case2 t o d hlt x y he h2 ih =>
    rw [diffMain.eq_def, dif_pos hlt]; dsimp only
    rw [if_neg he, if_pos h2]
    exact ih (by rw [take_getD a t hlt.1]; exact .remove _ h)
  | case3 t o d hlt x y he h2 h3 ih =>
    rw [diffMain.eq_def, dif_pos hlt]; dsimp only
    rw [if_neg he, if_neg h2, if_pos h3]
    exact ih (by rw [take_getD b o hlt.2]; exact .add _ _ h)
  | case4 t o d hlt x y he h2 h3 ih =>
    rw [diffMain.eq_def, dif_pos hlt]; dsimp only
    rw [if_neg he, if_neg h2, if_neg h3]
    refine ih ?_
    rw [take_getD a t hlt.1, take_getD b o hlt.2]
    have := Edits.remove (a.getD t .undef) (Edits.add (a.getD t .undef) (b.getD o .undef) h)
    rw [List.append_assoc] at this
    exact this
  | case5 t o d hlt =>
    rw [diffMain.eq_def, dif_neg hlt]; exact h

/-- **C68 (partial).** When `diff` of two arrays terminates, its result records changes that turn the first array into the second one.
Missing: termination, which does not hold, and positions, which are not recorded. -/
theorem C68_records_partial (eq : JV → JV → Bool) (fuel : Nat) (a b r : List JV) (h : diffArr eq fuel a b = .ok r) :
    ∃ d, Edits eq a b d ∧ r = if d = [] then [] else .undef :: d := by
  have hE := diffMain_edits eq a b 0 0 [] .nil
  unfold diffArr at h
  generalize hm : diffMain eq a b 0 0 [] = p at h hE
  obtain ⟨d, t, o⟩ := p
  dsimp only at h hE
  by_cases ho : o < b.length
  · rw [tailO_fuel b o ho] at h; cases h
  · rw [tailO_done b o ho] at h
    by_cases ht : t < a.length
    · change (do let diff ← tailT a fuel t o d; pure _) = _ at h
      rw [tailT_fuel a t ht] at h; cases h
    · change (do let diff ← tailT a fuel t o d; pure _) = _ at h
      rw [tailT_done a t ht] at h
      rw [List.take_of_length_le (by omega), List.take_of_length_le (by omega)] at hE
      refine ⟨d, hE, ?_⟩
      cases h
      split <;> simp_all

example : diffArr exactEq 9 [.null, .bool true] [.bool false, .bool true] = .ok [.undef, .null, .bool false, .null, .undef] := by
  decide +kernel

/-- **C68, violation.** Whenever one array continues the other one, `diff` never ends. -/
theorem C68_violation_endless (eq : JV → JV → Bool) (hr : ∀ x, defd x = true → eq x x = true) (a y : List JV)
    (ha : ∀ v ∈ a, defd v = true) (hy : ∀ v ∈ y, defd v = true) (hne : y ≠ []) (fuel : Nat) :
    diffArr eq fuel a (a ++ y) = .fuel ∧ diffArr eq fuel (a ++ y) a = .fuel := by
  have hpos : 0 < y.length := List.length_pos_iff.2 hne
  constructor
  · unfold diffArr
    rw [diffMain_prefix eq hr a ha a (a ++ y) (Or.inr ⟨y, rfl, rfl⟩) a.length 0 [] (by omega)]
    dsimp only
    rw [tailO_fuel _ _ (by simp; omega)]
    rfl
  · unfold diffArr
    rw [diffMain_prefix eq hr (a ++ y) (by
      intro v hv
      rcases List.mem_append.1 hv with h | h
      · exact ha v h
      · exact hy v h) a a (Or.inl ⟨y, rfl, rfl⟩) a.length 0 [] (by omega)]
    dsimp only
    rw [tailO_done _ _ (by omega)]
    change (do let diff ← tailT (a ++ y) fuel a.length a.length []; pure _) = _
    rw [tailT_fuel _ _ (by simp; omega)]
    rfl

/-- `[1].diff([1,2])`. -/
example (fuel : Nat) : diffArr exactEq fuel [n' 1] [n' 1, n' 2] = .fuel :=
  (C68_violation_endless exactEq (fun x _ => by simp [exactEq]) [n' 1] [n' 2] (by decide) (by decide) (by simp) fuel).1

end Imt.Props
