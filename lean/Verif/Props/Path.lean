import Verif.Model.Path
import Verif.Lemmas.ArrayB
import Verif.Lemmas.ObjB
import Verif.Spec.Order
import Mathlib.Tactic.ByContra
/-!
# Properties of paths and of `Value::replace` (C40, C41, C42, C79)
-/
namespace Imt.Props
open Imt Imt.Obj Imt.Spec Imt.Path

/-! ## C40 — replace and read -/

/-- An element made by one of the constructors from a 64-bit index or a key. -/
def Made (e : Elem) : Prop := (∃ k, e = mkKey k) ∨ (∃ i, i < 2 ^ 64 ∧ e = mkIdx i)

/-- Items of an array, nothing for other values. -/
def arrItems : JV → List JV
  | .arr l => l
  | _ => []

/-- Members of an object, nothing for other values. -/
def objMembers : JV → Members JV
  | .obj l => l
  | _ => []

/-- What a step of a path leads to. -/
def stepOf (v : JV) (e : Elem) : JV := if e.isIndex then itemAt v e.index else memberOf v e.key

/-- Objects on the way (root first) have their members in the canonical order, and indices are not used on objects. -/
def Walk : List Elem → JV → Prop
  | [], _ => True
  | e :: rest, v => (if e.isIndex then ∀ l, v ≠ .obj l else StrictSorted (objMembers v)) ∧ Walk rest (stepOf v e)

/-- Indices on the way are at most the number of the items. -/
def InRange : List Elem → JV → Prop
  | [], _ => True
  | e :: rest, v => (e.isIndex = true → e.index ≤ (arrItems v).length) ∧ InRange rest (stepOf v e)

theorem getPath_root (p : Path) (v : JV) : getPath v p = p.reverse.foldl stepOf v := by
  induction p with
  | nil => rfl
  | cons e p ih =>
    rw [getPath, List.reverse_cons, List.foldl_append, ← ih]
    rfl

theorem made_norm {e : Elem} (h : Made e) : (if e.isIndex then mkIdx e.index else mkKey e.key) = e := by
  rcases h with ⟨k, rfl⟩ | ⟨i, _, rfl⟩
  · simp [mkKey, Elem.isIndex]
  · by_cases hi : i = noIndex
    · subst hi; simp [mkKey, mkIdx, Elem.isIndex]
    · simp [mkIdx, Elem.isIndex, hi]

theorem revPath_eq (p : Path) (h : ∀ e ∈ p, Made e) : ∀ acc, revPath p acc = p.reverse ++ acc := by
  induction p with
  | nil => intro acc; rfl
  | cons e p ih =>
    intro acc
    rw [revPath, made_norm (h e (by simp)), ih (fun x hx => h x (by simp [hx]))]
    simp

theorem rep_arrBase (v : JV) : ArrB.Rep (arrBase v) (arrItems v) (arrItems v) ∧ (arrBase v).offset = (arrItems v).length := by
  cases v <;> first | exact ⟨ArrB.rep_new, rfl⟩ | (rename_i l; exact ⟨ArrB.rep_ofBase l, rfl⟩)

theorem itemAt_eq {v : JV} (h : ∀ l, v ≠ .obj l) (i : Nat) : itemAt v i = (arrItems v).getD i .undef := by
  cases v <;> first | rfl | (exact absurd rfl (h _))

theorem push_commit (v x : JV) : ArrB.commit JV.defined .undef (ArrB.add (arrBase v) x) =
    .ok (arrItems v ++ [x].filter JV.defined) := by
  obtain ⟨h, ho⟩ := rep_arrBase v
  rw [ArrB.rep_commit (ArrB.rep_add h x)]
  have hd : ArrB.dirty (ArrB.add (arrBase v) x) = true := by simp [ArrB.dirty, ArrB.add]
  have hoff : (ArrB.add (arrBase v) x).offset = (arrItems v).length := ho
  rw [if_pos hd, hoff, List.take_left, List.drop_left]

theorem set_off {s s' : ArrB.AB JV} {i : Nat} {x u : JV} (h : ArrB.set u s i x = .ok s') :
    s'.offset = (ArrB.extendChanges u s i).offset := by
  simp only [ArrB.set, ArrB.vecSet] at h
  split at h
  · simp at h; rw [← h]
  · simp at h

theorem set_commit (v x : JV) {i : Nat} (hi : i < (arrItems v).length) : ∃ a, ArrB.set .undef (arrBase v) i x = .ok a ∧
    ArrB.commit JV.defined .undef a = .ok ((arrItems v).take i ++ (x :: (arrItems v).drop (i + 1)).filter JV.defined) := by
  obtain ⟨h, ho⟩ := rep_arrBase v
  obtain ⟨a, ha, hr⟩ := ArrB.rep_set h JV.undef hi x
  refine ⟨a, ha, ?_⟩
  have hoff : a.offset = i := by rw [set_off ha, (h.extend JV.undef i).2, ho]; omega
  rw [ArrB.rep_commit hr, hoff]
  have hd : ArrB.dirty a = true := by
    simp only [ArrB.dirty, hoff, Bool.or_eq_true, bne_iff_ne, hr.1]; left; omega
  have hl : ((arrItems v).take i).length = i := by simp; omega
  rw [if_pos hd, List.take_left' hl, List.drop_left' hl]

theorem defined_iff (x : JV) : JV.defined x = true ↔ x ≠ .undef := by cases x <;> simp [JV.defined]

theorem inv_objBase {v : JV} (h : StrictSorted (objMembers v)) : ObjB.Inv (objBase v) := by
  cases v <;> first | exact ObjB.inv_new | exact ObjB.inv_ofBase false h

theorem objBase_eq (v : JV) : (objBase v).base = objMembers v ∧ (objBase v).baseDiff = false ∧
    ∀ k, ObjB.recorded (objBase v) k = none := by
  cases v <;> exact ⟨rfl, rfl, fun k => rfl⟩

theorem memberOf_eq {v : JV} (h : StrictSorted (objMembers v)) (k : Bytes) :
    memberOf v k = (lookup (objMembers v) k).getD .undef := by
  cases v <;> first | rfl | (simp only [memberOf, objMembers] at h ⊢; rw [Obj.member_eq_lookup h])

theorem obj_step {v : JV} (h : StrictSorted (objMembers v)) (k : Bytes) :
    ∃ s, ObjB.get JV.defined .undef (objBase v) k = .ok (memberOf v k, s) ∧
      ∀ x, ∃ l, (ObjB.commit JV.defined (ObjB.set JV.defined s k x)).1 = l ∧ StrictSorted l ∧
        ∀ k', memberOf (.obj l) k' = if k = k' then x else memberOf v k' := by
  obtain ⟨b1, b2, b3⟩ := objBase_eq v
  obtain ⟨s, h1, h2, h3, h4, h5, _⟩ := ObjB.get_spec JV.defined (inv_objBase h) JV.undef k
  refine ⟨s, ?_, ?_⟩
  · rw [h1, memberOf_eq h]
    simp only [ObjB.cur, b3, b1]
    rfl
  · intro x
    obtain ⟨c1, c2, c3, c4, _⟩ := ObjB.setInternal_spec JV.defined h2 (k, x)
    obtain ⟨_, _, _, _, _, d1, d2⟩ := ObjB.commit_spec JV.defined c1
    refine ⟨_, rfl, d1, ?_⟩
    intro k'
    refine (memberOf_eq (v := .obj (ObjB.commit JV.defined (ObjB.setInternal JV.defined s (k, x))).1) d1 k').trans ?_
    simp only [objMembers]
    rw [d2, c2, c3, c4, h3, h4, h5, b1, b2, b3, memberOf_eq h]
    by_cases hk : k = k'
    · simp only [hk, if_true, ObjB.comb]
      by_cases hx : JV.defined x = true
      · rw [if_pos hx]; cases lookup (objMembers v) k' <;> rfl
      · rw [if_neg hx]
        have : x = .undef := by by_contra hc; exact hx ((defined_iff x).2 hc)
        simp [this]
    · simp [hk, ObjB.comb]

/-- One step of `setToPathRev` over an array index. -/
theorem idx_step {e : Elem} {rest : Path} {old x nv : JV} {diff : Bool} (he : e.isIndex = true) (ho : ∀ l, old ≠ .obj l)
    (hx : setToPathRev diff nv rest (stepOf old e) = .ok x) :
    setToPathRev diff nv (e :: rest) old = .ok (.arr
      (if e.index < (arrItems old).length then
        (arrItems old).take e.index ++ (x :: (arrItems old).drop (e.index + 1)).filter JV.defined
      else arrItems old ++ [x].filter JV.defined)) := by
  obtain ⟨h, _⟩ := rep_arrBase old
  rw [setToPathRev, if_pos he, h.size]
  rw [stepOf, if_pos he, itemAt_eq ho] at hx
  by_cases hi : e.index < (arrItems old).length
  · rw [if_neg (by omega), if_pos hi, ArrB.rep_get h _ hi]
    obtain ⟨a, ha, hc⟩ := set_commit old x hi
    rw [List.getD_eq_getElem?_getD, List.getElem?_eq_getElem hi] at hx
    simp only [Option.getD_some] at hx
    simp [hx, ha, hc]
  · rw [if_pos (by omega), if_neg hi]
    rw [List.getD_eq_getElem?_getD, List.getElem?_eq_none (by omega)] at hx
    simp only [Option.getD_none] at hx
    simp [hx, push_commit]

/-- One step of `setToPathRev` over a key. -/
theorem key_step {e : Elem} {rest : Path} {old x nv : JV} {diff : Bool} (he : e.isIndex = false)
    (ho : StrictSorted (objMembers old)) (hx : setToPathRev diff nv rest (stepOf old e) = .ok x) :
    ∃ l, setToPathRev diff nv (e :: rest) old = .ok (.obj l) ∧ StrictSorted l ∧
      ∀ k', memberOf (.obj l) k' = if e.key = k' then x else memberOf old k' := by
  obtain ⟨s, h1, h2⟩ := obj_step ho e.key
  obtain ⟨l, hl, h3, h4⟩ := h2 x
  refine ⟨l, ?_, h3, h4⟩
  rw [stepOf, if_neg (by simp [he])] at hx
  rw [setToPathRev, if_neg (by simp [he]), h1]
  simp [hx, hl]

/-- Replacing always succeeds on canonical values. -/
theorem put_total (diff : Bool) (nv : JV) : ∀ (R : Path) (old : JV), Walk R old →
    ∃ new, setToPathRev diff nv R old = .ok new ∧ (R ≠ [] → new ≠ .undef)
  | [], old, _ => ⟨_, rfl, fun h => absurd rfl h⟩
  | e :: rest, old, hw => by
    obtain ⟨h1, h2⟩ := hw
    obtain ⟨x, hx, _⟩ := put_total diff nv rest _ h2
    by_cases he : e.isIndex = true
    · rw [if_pos he] at h1
      exact ⟨_, idx_step he h1 hx, fun _ => by simp⟩
    · rw [if_neg he] at h1
      obtain ⟨l, hl, _⟩ := key_step (by simpa using he) h1 hx
      exact ⟨_, hl, fun _ => by simp⟩

/-- The value put is defined, or the last step is a key. -/
def Visible (R : Path) (x : JV) : Prop := x ≠ .undef ∨ ∃ e, R.getLast? = some e ∧ e.isIndex = false

theorem put_get (diff : Bool) (nv : JV) : ∀ (R : Path) (old new : JV), Walk R old → InRange R old →
    Visible R (putRoot diff nv (R.foldl stepOf old)) → setToPathRev diff nv R old = .ok new →
    R.foldl stepOf new = putRoot diff nv (R.foldl stepOf old)
  | [], old, new, _, _, _, h => by
    simp only [setToPathRev, Res.ok.injEq] at h
    rw [← h]; rfl
  | e :: rest, old, new, hw, hr, hv, h => by
    obtain ⟨h1, h2⟩ := hw
    obtain ⟨r1, r2⟩ := hr
    obtain ⟨x, hx, hdx⟩ := put_total diff nv rest _ h2
    have hrest : rest ≠ [] ∨ rest = [] := by cases rest <;> simp
    have ihv : Visible rest (putRoot diff nv (rest.foldl stepOf (stepOf old e))) ∨ rest = [] := by
      rcases hrest with hne | h0
      · left
        rcases hv with hv | ⟨y, hy, hk⟩
        · exact Or.inl hv
        · refine Or.inr ⟨y, ?_, hk⟩
          rw [List.getLast?_cons] at hy
          cases hc : rest.getLast? with
          | none => exact absurd (List.getLast?_eq_none_iff.1 hc) hne
          | some z => rw [hc] at hy; simpa using hy
      · exact Or.inr h0
    have hix : rest.foldl stepOf x = putRoot diff nv (rest.foldl stepOf (stepOf old e)) := by
      rcases ihv with ihv | h0
      · exact put_get diff nv rest _ x h2 r2 ihv hx
      · subst h0
        simp only [setToPathRev, Res.ok.injEq] at hx
        rw [← hx]; rfl
    rw [List.foldl_cons, List.foldl_cons, ← hix]
    congr 1
    by_cases he : e.isIndex = true
    · rw [if_pos he] at h1
      have hd : JV.defined x = true := by
        rw [defined_iff]
        rcases hrest with hne | h0
        · exact hdx hne
        · subst h0
          rcases hv with hv | ⟨y, hy, hk⟩
          · have : x = putRoot diff nv (stepOf old e) := hix
            rw [this]; exact hv
          · simp at hy; subst hy; rw [he] at hk; cases hk
      rw [idx_step he h1 hx, Res.ok.injEq] at h
      rw [← h, stepOf, if_pos he, itemAt, List.getD_eq_getElem?_getD]
      have hi := r1 he
      split
      · rename_i hlt
        rw [List.getElem?_append_right (by rw [List.length_take]; omega), List.length_take, Nat.min_eq_left hi, List.filter_cons_of_pos hd]
        simp
      · rename_i hlt
        rw [List.getElem?_append_right (by omega), List.filter_cons_of_pos hd, show e.index - (arrItems old).length = 0 by omega]
        rfl
    · rw [if_neg he] at h1
      obtain ⟨l, hl, _, hm⟩ := key_step (by simpa using he) h1 hx
      rw [hl, Res.ok.injEq] at h
      rw [← h, stepOf, if_neg he, hm, if_pos rfl]

/-- Common part of the frame theorems: the common steps of the two paths. -/
theorem put_frame_common (diff : Bool) (nv : JV) (a b : Elem) (r q : Path) : ∀ (c : Path) (old new : JV),
    Walk (c ++ a :: r) old → setToPathRev diff nv (c ++ a :: r) old = .ok new →
    (∀ new', setToPathRev diff nv (a :: r) (c.foldl stepOf old) = .ok new' →
      (b :: q).foldl stepOf new' = (b :: q).foldl stepOf (c.foldl stepOf old)) →
    (c ++ b :: q).foldl stepOf new = (c ++ b :: q).foldl stepOf old
  | [], old, new, _, h, hf => hf new h
  | e :: c, old, new, hw, h, hf => by
    obtain ⟨h1, h2⟩ := hw
    obtain ⟨x, hx, hdx⟩ := put_total diff nv (c ++ a :: r) _ h2
    have ih := put_frame_common diff nv a b r q c _ x h2 hx hf
    have hd : JV.defined x = true := by rw [defined_iff]; exact hdx (by simp)
    rw [List.cons_append, List.foldl_cons, List.foldl_cons]
    rw [List.cons_append] at h
    by_cases he : e.isIndex = true
    · rw [if_pos he] at h1
      rw [idx_step he h1 hx, Res.ok.injEq] at h
      have hso : stepOf old e = (arrItems old).getD e.index .undef := by rw [stepOf, if_pos he, itemAt_eq h1]
      by_cases hlt : e.index < (arrItems old).length
      · rw [if_pos hlt] at h
        have : stepOf new e = x := by
          rw [← h, stepOf, if_pos he, itemAt, List.getD_eq_getElem?_getD,
            List.getElem?_append_right (by rw [List.length_take]; omega), List.length_take, Nat.min_eq_left (by omega), List.filter_cons_of_pos hd]
          simp
        rw [this, ih]
      · rw [if_neg hlt] at h
        have hold : stepOf old e = .undef := by
          rw [hso, List.getD_eq_getElem?_getD, List.getElem?_eq_none (by omega)]; rfl
        by_cases heq : e.index = (arrItems old).length
        · have : stepOf new e = x := by
            rw [← h, stepOf, if_pos he, itemAt, List.getD_eq_getElem?_getD,
              List.getElem?_append_right (by omega), List.filter_cons_of_pos hd, heq]
            simp
          rw [this, ih]
        · have : stepOf new e = .undef := by
            rw [← h, stepOf, if_pos he, itemAt, List.getD_eq_getElem?_getD, List.getElem?_eq_none]
            · rfl
            · rw [List.length_append, List.filter_cons_of_pos hd]; simp; omega
          rw [this, hold]
    · rw [if_neg he] at h1
      obtain ⟨l, hl, _, hm⟩ := key_step (by simpa using he) h1 hx
      rw [hl, Res.ok.injEq] at h
      have : stepOf new e = x := by rw [← h, stepOf, if_neg he, hm, if_pos rfl]
      rw [this, ih]

theorem walk_append : ∀ (c r : Path) (v : JV), Walk (c ++ r) v → Walk r (c.foldl stepOf v)
  | [], _, _, h => h
  | _ :: c, r, _, h => walk_append c r _ h.2

/-- **C40.** Replacing succeeds for every path over every value whose objects on the path are canonical and where indices
are not applied to objects; missing parents do not matter. -/
theorem C40_replace_succeeds (v val : JV) (p : Path) (diff : Bool) (hp : ∀ e ∈ p, Made e) (hw : Walk p.reverse v) :
    ∃ new, replace v p val diff = .ok new := by
  obtain ⟨new, h, _⟩ := put_total diff val _ v hw
  exact ⟨new, by rw [replace, revPath_eq p hp, List.append_nil, h]⟩

/-- **C40 (partial).** After `replace(path, val)` the path leads to `val`. Wanted for every path; missing are the paths with
an index above the size of the array (`C40_violation_index_beyond_end`) and an undefined value put to an array
(`C40_violation_undefined_item`). -/
theorem C40_read_back_partial (v val new : JV) (p : Path) (hp : ∀ e ∈ p, Made e) (hw : Walk p.reverse v)
    (hr : InRange p.reverse v) (hv : val ≠ .undef ∨ ∃ e, p.head? = some e ∧ e.isIndex = false)
    (h : replace v p val = .ok new) : getPath new p = val := by
  rw [replace, revPath_eq p hp, List.append_nil] at h
  rw [getPath_root]
  have := put_get false val p.reverse v new hw hr (by
    rcases hv with hv | ⟨e, he, hk⟩
    · exact Or.inl hv
    · exact Or.inr ⟨e, by rw [List.getLast?_reverse, he], hk⟩) h
  exact this

theorem inRange_keys : ∀ (R : Path) (v : JV), (∀ e ∈ R, e.isIndex = false) → InRange R v
  | [], _, _ => trivial
  | e :: R, v, h => ⟨fun hc => (by rw [h e (by simp)] at hc; cases hc), inRange_keys R _ (fun x hx => h x (by simp [hx]))⟩

/-- **C40.** For paths made of keys the law holds without exceptions: for every new value, undefined included, and
every old value with canonical objects. Missing parents are created. -/
theorem C40_read_back_keys (v val new : JV) (ks : List Bytes) (hw : Walk (ks.map mkKey).reverse v)
    (h : replace v (ks.map mkKey) val = .ok new) : getPath new (ks.map mkKey) = val := by
  cases ks with
  | nil =>
    simp only [replace, List.map_nil, revPath, setToPathRev, Res.ok.injEq] at h
    rw [← h]; rfl
  | cons k ks =>
    refine C40_read_back_partial v val new _ ?_ hw ?_ (Or.inr ⟨mkKey k, rfl, by simp [mkKey, Elem.isIndex]⟩) h
    · intro e he
      obtain ⟨x, _, rfl⟩ := List.mem_map.1 he
      exact Or.inl ⟨x, rfl⟩
    · apply inRange_keys
      intro e he
      obtain ⟨x, _, rfl⟩ := List.mem_map.1 (List.mem_reverse.1 he)
      simp [mkKey, Elem.isIndex]

/-- **C40.** A value carrying the diff flag is applied to what the path led to. -/
theorem C40_read_back_diff (v new : JV) (d : Members JV) (p : Path) (hp : ∀ e ∈ p, Made e) (hw : Walk p.reverse v)
    (hr : InRange p.reverse v) (hd : StrictSorted d) (ho : StrictSorted (objMembers (getPath v p)))
    (h : replace v p (.obj d) true = .ok new) : ∃ l, getPath new p = .obj l ∧ StrictSorted l ∧
      ∀ k, lookup l k = match lookup d k with
        | none => lookup (objMembers (getPath v p)) k
        | some x => if x = .undef then none else some x := by
  rw [replace, revPath_eq p hp, List.append_nil] at h
  have hroot : putRoot true (.obj d) (p.reverse.foldl stepOf v) =
      .obj (ObjB.applyDiff JV.defined false (objMembers (getPath v p)) d) := by
    rw [← getPath_root]
    cases getPath v p <;> rfl
  have := put_get true (.obj d) p.reverse v new hw hr (by rw [hroot]; exact Or.inl (by simp)) h
  rw [← getPath_root, hroot] at this
  refine ⟨_, this, ObjB.applyDiffImpl_sorted _ _ _ ho hd, ?_⟩
  intro k
  refine (ObjB.applyDiffImpl_lookup _ _ _ ho hd k).trans ?_
  cases lookup d k with
  | none => rfl
  | some x =>
    by_cases hx : x = .undef
    · simp [ObjB.comb, hx, JV.defined]
    · simp only [ObjB.comb, (defined_iff x).2 hx, if_true, if_neg hx]
      cases lookup (objMembers (getPath v p)) k <;> rfl

/-- **C40.** Paths that leave the replaced path at a key (both take different keys of the same value) lead to
what they led to before. (`c` is the common part, leaf first.) -/
theorem C40_frame_keys (v val new : JV) (diff : Bool) (r q c : Path) (a b : Bytes) (hab : a ≠ b)
    (hp : ∀ e ∈ r ++ mkKey a :: c, Made e) (hw : Walk (r ++ mkKey a :: c).reverse v)
    (h : replace v (r ++ mkKey a :: c) val diff = .ok new) :
    getPath new (q ++ mkKey b :: c) = getPath v (q ++ mkKey b :: c) := by
  rw [replace, revPath_eq _ hp, List.append_nil] at h
  rw [getPath_root, getPath_root]
  have e1 : ∀ (x y : Path) (z : Elem), (x ++ z :: y).reverse = y.reverse ++ z :: x.reverse := by intros; simp
  rw [e1] at h hw ⊢
  refine put_frame_common diff val _ _ _ _ _ _ _ hw h ?_
  intro new' h'
  have hw' := walk_append _ _ _ hw
  obtain ⟨x, hx, _⟩ := put_total diff val _ _ hw'.2
  have hka : (mkKey a).isIndex = false := by simp [mkKey, Elem.isIndex]
  have hkb : (mkKey b).isIndex = false := by simp [mkKey, Elem.isIndex]
  have hs := hw'.1
  rw [if_neg (by simp [hka])] at hs
  obtain ⟨l, hl, _, hm⟩ := key_step hka hs hx
  rw [hl, Res.ok.injEq] at h'
  rw [List.foldl_cons, List.foldl_cons, ← h']
  congr 1
  rw [stepOf, stepOf, if_neg (by simp [hkb]), if_neg (by simp [hkb]), hm,
    if_neg (show ¬ (mkKey a).key = (mkKey b).key from hab)]

/-- **C40.** Paths that leave the replaced path at an index lead to what they led to before, when the index is not above
the size, the array has no undefined items and the new item is not undefined. -/
theorem C40_frame_items (v val new : JV) (diff : Bool) (r q c : Path) (i j : Nat) (hij : i ≠ j) (hi : i < 2 ^ 64 - 1)
    (hj : j < 2 ^ 64 - 1) (hp : ∀ e ∈ r ++ mkIdx i :: c, Made e) (hw : Walk (r ++ mkIdx i :: c).reverse v)
    (hle : i ≤ (arrItems (getPath v c)).length) (hdef : ∀ x ∈ arrItems (getPath v c), x ≠ .undef)
    (hval : r ≠ [] ∨ putRoot diff val (getPath v (mkIdx i :: c)) ≠ .undef)
    (h : replace v (r ++ mkIdx i :: c) val diff = .ok new) :
    getPath new (q ++ mkIdx j :: c) = getPath v (q ++ mkIdx j :: c) := by
  have hka : ∀ n, n < 2 ^ 64 - 1 → (mkIdx n).isIndex = true := by
    intro n hn
    have : n ≠ noIndex := by unfold noIndex; omega
    simp [mkIdx, Elem.isIndex, this]
  have hia := hka i hi
  have hjb := hka j hj
  clear hka hi hj
  rw [replace, revPath_eq _ hp, List.append_nil] at h
  rw [getPath_root, getPath_root]
  have e1 : ∀ (x y : Path) (z : Elem), (x ++ z :: y).reverse = y.reverse ++ z :: x.reverse := by intros; simp
  rw [e1] at h hw ⊢
  refine put_frame_common diff val _ _ _ _ _ _ _ hw h ?_
  intro new' h'
  have hw' := walk_append _ _ _ hw
  obtain ⟨x, hx, hdx⟩ := put_total diff val _ _ hw'.2
  have hs := hw'.1
  rw [if_pos hia] at hs
  rw [← getPath_root] at hs hx hw' h' ⊢
  have hd : JV.defined x = true := by
    rw [defined_iff]
    rcases hval with hr | hr
    · exact hdx (by simpa using hr)
    · cases r with
      | cons y r => exact hdx (by simp)
      | nil =>
        simp only [List.reverse_nil, setToPathRev, Res.ok.injEq] at hx
        rw [← hx]
        rw [getPath, if_pos hia] at hr
        rw [stepOf, if_pos hia]
        exact hr
  rw [idx_step hia hs hx, Res.ok.injEq] at h'
  rw [List.foldl_cons, List.foldl_cons, ← h']
  congr 1
  rw [stepOf, stepOf, if_pos hjb, if_pos hjb, itemAt_eq hs, itemAt]
  have hf : ∀ n, ((arrItems (getPath v c)).drop n).filter JV.defined = (arrItems (getPath v c)).drop n := by
    intro n
    refine List.filter_eq_self.2 (fun y hy => (defined_iff y).2 (hdef y (List.mem_of_mem_drop hy)))
  have ei : (mkIdx i).index = i := rfl
  have ej : (mkIdx j).index = j := rfl
  rw [List.filter_cons_of_pos hd, List.filter_cons_of_pos hd, hf, ei, ej]
  generalize arrItems (getPath v c) = l at *
  rw [List.getD_eq_getElem?_getD, List.getD_eq_getElem?_getD]
  congr 1
  split
  · rename_i hlt
    by_cases hji : j < i
    · rw [List.getElem?_append_left (by simp; omega), List.getElem?_take, if_pos hji]
    · rw [List.getElem?_append_right (by simp; omega), List.length_take, Nat.min_eq_left (by omega)]
      obtain ⟨n, hn⟩ : ∃ n, j - i = n + 1 := ⟨j - i - 1, by omega⟩
      rw [hn, List.getElem?_cons_succ, List.getElem?_drop, show i + 1 + n = j by omega]
  · rename_i hlt
    by_cases hji : j < l.length
    · rw [List.getElem?_append_left hji]
    · rw [List.getElem?_append_right (by omega), List.getElem?_eq_none (l := l) (by omega)]
      have : 1 ≤ j - l.length := by omega
      rw [List.getElem?_eq_none (by simpa using this)]

/-- A document and paths that meet the hypotheses: `{"a":[1,{"b":2}]}`. -/
def docEx : JV := .obj [([97], .arr [.num (.uint 1), .obj [([98], .num (.uint 2))]])]

example : Walk [mkKey [97], mkIdx 1, mkKey [99]] docEx ∧ InRange [mkKey [97], mkIdx 1, mkKey [99]] docEx := by
  have h1 : (mkKey [97]).isIndex = false := by decide +kernel
  have h2 : (mkIdx 1).isIndex = true := by decide +kernel
  have h3 : (mkKey [99]).isIndex = false := by decide +kernel
  have s1 : stepOf docEx (mkKey [97]) = .arr [.num (.uint 1), .obj [([98], .num (.uint 2))]] := by decide +kernel
  have s2 : stepOf (.arr [.num (.uint 1), .obj [([98], .num (.uint 2))]]) (mkIdx 1) = .obj [([98], .num (.uint 2))] := by
    decide +kernel
  have e2 : (mkIdx 1).index = 1 := rfl
  rw [Walk, Walk, Walk, Walk, InRange, InRange, InRange, InRange, s1, s2]
  rw [if_neg (by simp [h1]), if_pos h2, if_neg (by simp [h3]), h1, h2, h3, e2]
  refine ⟨⟨List.pairwise_singleton _ _, by simp, List.pairwise_singleton _ _, trivial⟩, by simp, by simp [arrItems], by simp, trivial⟩

example : replace docEx [mkKey [99], mkIdx 1, mkKey [97]] (.bool true) =
    .ok (.obj [([97], .arr [.num (.uint 1), .obj [([98], .num (.uint 2)), ([99], .bool true)]])]) := by decide +kernel

/-- **C40, violation.** An index above the size appends the value at the end; the path still leads nowhere. -/
theorem C40_violation_index_beyond_end : replace (.arr [.null]) [mkIdx 5] (.bool true) = .ok (.arr [.null, .bool true]) ∧
    getPath (.arr [.null, .bool true]) [mkIdx 5] = .undef := by decide +kernel

/-- **C40, violation.** Putting undefined to an array removes the item: the path leads to the next item and the
neighbours are shifted. -/
theorem C40_violation_undefined_item :
    replace (.arr [.null, .bool true, .bool false]) [mkIdx 0] .undef = .ok (.arr [.bool true, .bool false]) ∧
    getPath (.arr [.bool true, .bool false]) [mkIdx 0] = .bool true ∧
    getPath (.arr [.bool true, .bool false]) [mkIdx 1] ≠ getPath (.arr [.null, .bool true, .bool false]) [mkIdx 1] := by
  decide +kernel

/-- **C40, violation.** An index over an object reads the member at that position, but replacing throws the
object away. -/
theorem C40_violation_index_over_object :
    getPath (.obj [([97], .null), ([98], .bool true)]) [mkIdx 1] = .bool true ∧
    replace (.obj [([97], .null), ([98], .bool true)]) [mkIdx 1] (.bool false) = .ok (.arr [.bool false]) := by
  decide +kernel

/-! ## C41 — paths as values -/

/-- The value of an element. -/
def elemVal (e : Elem) : JV := if e.isIndex then .num (.uint e.index) else .str e.key

theorem toArray_rep (p : Path) : ArrB.Rep (toArray p ArrB.new) [] (p.reverse.map elemVal) := by
  induction p with
  | nil => exact ArrB.rep_new
  | cons e p ih =>
    rw [List.reverse_cons, List.map_append]
    exact ArrB.rep_add ih _

/-- **C41.** The value of a path is the array of its keys and indices from the root. -/
theorem C41_toValue (p : Path) : toValue p = .ok (.arr (p.reverse.map elemVal)) := by
  have hd : (p.reverse.map elemVal).filter JV.defined = p.reverse.map elemVal := by
    refine List.filter_eq_self.2 ?_
    intro x hx
    obtain ⟨e, _, rfl⟩ := List.mem_map.1 hx
    unfold elemVal
    split <;> rfl
  rw [toValue, ArrB.rep_commit_def (toArray_rep p) JV.defined JV.undef (by simp), hd]
  rfl

theorem fromLoop_spec (other : JNum → Nat) (l : List JV) : ∀ (rs : Path) (pre : List JV) (parent : Path),
    l = pre ++ rs.map elemVal → (∀ e ∈ rs, Made e) →
    fromLoop other (.arr l) rs.length parent pre.length = .ok (rs.reverse ++ parent)
  | [], _, _, _, _ => rfl
  | e :: rs, pre, parent, hl, hm => by
    have hi : itemAt (.arr l) pre.length = elemVal e := by
      rw [itemAt, hl, List.getD_eq_getElem?_getD, List.getElem?_append_right (Nat.le_refl _), Nat.sub_self]
      rfl
    have ih := fromLoop_spec other l rs (pre ++ [elemVal e]) (e :: parent) (by rw [hl]; simp) (fun x hx => hm x (by simp [hx]))
    rw [List.length_append, List.length_singleton] at ih
    rw [List.length_cons, fromLoop, hi, List.reverse_cons, List.append_assoc, List.singleton_append]
    have hn := made_norm (hm e (by simp))
    unfold elemVal
    by_cases he : e.isIndex = true
    · rw [if_pos he] at hn ⊢
      simp only [numUInt, hn]
      exact ih
    · rw [if_neg he] at hn ⊢
      simp only [hn]
      exact ih

/-- **C41.** A negative index is taken modulo 2^64; written back it is that large number. -1 is the mark of elements which are
keys (path.h:68), so it becomes the empty key. -/
theorem C41_negative (other : JNum → Nat) (i : Int) (h : -2 ^ 63 ≤ i) (h0 : i < 0) :
    ∃ n : Nat, (n : Int) = i + 2 ^ 64 ∧ fromValue other (.arr [.num (.int i)]) = .ok [mkIdx n] ∧
      toValue [mkIdx n] = .ok (.arr [if i = -1 then .str [] else .num (.uint n)]) := by
  refine ⟨(i + 2 ^ 64).toNat, by omega, ?_, ?_⟩
  · have e : (i % 2 ^ 64).toNat = (i + 2 ^ 64).toNat := by
      rw [← Int.add_emod_right, Int.emod_eq_of_lt (by omega) (by omega)]
    show Res.ok [mkIdx (numUInt other (.int i))] = _
    unfold numUInt
    dsimp only
    rw [e]
  · rw [C41_toValue]
    show Res.ok (JV.arr [elemVal _]) = _
    unfold elemVal Elem.isIndex mkIdx noIndex
    by_cases hi : i = -1
    · subst hi; rfl
    · rw [if_neg hi, if_pos]
      simp only [bne_iff_ne, ne_eq]
      omega

example : (-2 : Int) ^ 63 ≤ -1 ∧ (-1 : Int) < 0 := by decide

/-- **C41.** `fromValue(p.toValue())` has the elements of `p`, for every path made by the constructors. -/
theorem C41_round_trip (other : JNum → Nat) (p : Path) (hp : ∀ e ∈ p, Made e) :
    ∃ v, toValue p = .ok v ∧ fromValue other v = .ok p := by
  refine ⟨_, C41_toValue p, ?_⟩
  have := fromLoop_spec other (p.reverse.map elemVal) p.reverse [] [] rfl (fun e he => hp e (List.mem_reverse.1 he))
  rw [List.reverse_reverse, List.append_nil] at this
  rw [fromValue, Path.sizeOf, List.length_map]
  exact this

/-- **C41.** An array with an item that is neither a string nor a number is refused. -/
theorem C41_refuses (other : JNum → Nat) (l : List JV) (x : JV) (hx : x ∈ l) (h1 : ∀ k, x ≠ .str k) (h2 : ∀ n, x ≠ .num n) :
    fromValue other (.arr l) = .err := by
  have key : ∀ (n : Nat) (parent : Path) (off : Nat), off + n = l.length → x ∈ l.drop off →
      fromLoop other (.arr l) n parent off = .err := by
    intro n
    induction n with
    | zero => intro parent off ho hm; rw [List.drop_of_length_le (by omega)] at hm; simp at hm
    | succ n ih =>
      intro parent off ho hm
      have hlt : off < l.length := by omega
      have hi : itemAt (.arr l) off = l[off] := by
        rw [itemAt, List.getD_eq_getElem?_getD, List.getElem?_eq_getElem hlt]; rfl
      rw [List.drop_eq_getElem_cons hlt, List.mem_cons] at hm
      rw [fromLoop, hi]
      rcases hm with hm | hm
      · rw [← hm]
        cases x <;> first | rfl | exact absurd rfl (h1 _) | exact absurd rfl (h2 _)
      · split
        · exact ih _ _ (by omega) hm
        · exact ih _ _ (by omega) hm
        · rfl
  exact key l.length [] 0 (by omega) (by simpa using hx)

example : (∀ e ∈ [mkIdx 3, mkKey [97, 98], mkKey []], Made e) ∧
    toValue [mkIdx 3, mkKey [97, 98], mkKey []] = .ok (.arr [.str [], .str [97, 98], .num (.uint 3)]) := by
  refine ⟨?_, by decide +kernel⟩
  intro e he
  simp only [List.mem_cons, List.not_mem_nil, or_false] at he
  rcases he with rfl | rfl | rfl
  · exact Or.inr ⟨3, by omega, rfl⟩
  · exact Or.inl ⟨_, rfl⟩
  · exact Or.inl ⟨_, rfl⟩

/-- **C41.** A value that is no container gives the root path. -/
theorem C41_scalar (other : JNum → Nat) (v : JV) (h1 : ∀ l, v ≠ .arr l) (h2 : ∀ l, v ≠ .obj l) : fromValue other v = .ok [] := by
  cases v <;> first | rfl | exact absurd rfl (h1 _) | exact absurd rfl (h2 _)

example : (∀ l, JV.str [97] ≠ .arr l) ∧ ∀ l, JV.str [97] ≠ .obj l := ⟨nofun, nofun⟩

/-! ## C42 — comparison of paths -/

/-- Comparison of single elements. -/
def elemCmp (a b : Elem) : Int :=
  if a.isIndex then (if b.isIndex then (if a.index < b.index then -1 else if a.index > b.index then 1 else 0) else -1)
  else if b.isIndex then 1 else sgn (cmpBytes a.key b.key)

theorem compare_cons (a b : Elem) (p q : Path) :
    Path.compare (a :: p) (b :: q) = if elemCmp a b ≠ 0 then elemCmp a b else Path.compare p q := by
  rw [Path.compare, elemCmp]
  by_cases ha : a.isIndex = true <;> by_cases hb : b.isIndex = true
  · simp only [ha, hb, if_true]
    split
    · simp
    · split <;> simp
  · simp [ha, hb]
  · simp [ha, hb]
  · simp [ha, hb]

theorem elemCmp_swap (a b : Elem) : elemCmp b a = - elemCmp a b := by
  unfold elemCmp
  by_cases ha : a.isIndex = true <;> by_cases hb : b.isIndex = true
  · simp only [ha, hb, if_true]; split <;> split <;> omega
  · simp [ha, hb]
  · simp [ha, hb]
  · simp only [ha, hb]
    rw [cmpBytes_swap a.key b.key]
    cases cmpBytes a.key b.key <;> rfl

theorem elemCmp_trans (a b c : Elem) (h1 : elemCmp a b ≤ 0) (h2 : elemCmp b c ≤ 0) :
    elemCmp a c ≤ 0 ∧ (elemCmp a c = 0 → elemCmp a b = 0 ∧ elemCmp b c = 0) := by
  unfold elemCmp at *
  by_cases ha : a.isIndex = true <;> by_cases hb : b.isIndex = true <;> by_cases hc : c.isIndex = true <;>
    simp only [ha, hb, hc, if_true] at h1 h2 ⊢
  · repeat' split at h1
    all_goals repeat' split at h2
    all_goals repeat' split
    all_goals omega
  · simp
  · simp at h2
  · simp
  · simp at h1
  · simp at h1
  · simp at h2
  · have hlt : ∀ x y : Bytes, sgn (cmpBytes x y) ≤ 0 ↔ cmpBytes x y = .lt ∨ x = y := by
      intro x y
      rw [← cmpBytes_eq_iff]
      cases cmpBytes x y <;> simp [sgn]
    have h0 : ∀ x y : Bytes, sgn (cmpBytes x y) = 0 ↔ x = y := by
      intro x y
      rw [← cmpBytes_eq_iff]
      cases cmpBytes x y <;> simp [sgn]
    simp only [Bool.false_eq_true, if_false] at h1 h2 ⊢
    rw [hlt] at h1 h2
    rw [hlt, h0, h0, h0]
    rcases h1 with h1 | h1 <;> rcases h2 with h2 | h2
    · have := cmpBytes_lt_trans h1 h2
      exact ⟨Or.inl this, fun he => by rw [he, cmpBytes_self] at this; cases this⟩
    · rw [← h2]; exact ⟨Or.inl h1, fun he => by rw [he, cmpBytes_self] at h1; cases h1⟩
    · rw [h1]; exact ⟨Or.inl h2, fun he => ⟨rfl, he⟩⟩
    · rw [h1, h2]; exact ⟨Or.inr rfl, fun _ => ⟨rfl, rfl⟩⟩

theorem compare_swap : ∀ (p q : Path), Path.compare q p = - Path.compare p q
  | [], [] => rfl
  | [], _ :: _ => rfl
  | _ :: _, [] => rfl
  | a :: p, b :: q => by
    rw [compare_cons, compare_cons, elemCmp_swap a b, compare_swap p q]
    split <;> split <;> omega

theorem compare_trans : ∀ (p q r : Path), Path.compare p q ≤ 0 → Path.compare q r ≤ 0 → Path.compare p r ≤ 0
  | [], _, [], _, _ => by simp [Path.compare]
  | [], _, _ :: _, _, _ => by simp [Path.compare]
  | _ :: _, [], _, h, _ => by simp [Path.compare] at h
  | _ :: _, _ :: _, [], _, h => by simp [Path.compare] at h
  | a :: p, b :: q, c :: r, h1, h2 => by
    rw [compare_cons] at h1 h2 ⊢
    have ha : elemCmp a b ≤ 0 := by split at h1 <;> omega
    have hb : elemCmp b c ≤ 0 := by split at h2 <;> omega
    obtain ⟨t1, t2⟩ := elemCmp_trans a b c ha hb
    by_cases h0 : elemCmp a c = 0
    · obtain ⟨e1, e2⟩ := t2 h0
      rw [if_neg (by simp [e1])] at h1
      rw [if_neg (by simp [e2])] at h2
      rw [if_neg (by simp [h0])]
      exact compare_trans p q r h1 h2
    · rw [if_pos h0]; exact t1

/-- **C42.** `Path::compare` is a total order: swapping the arguments swaps the sign, "not above" is transitive. -/
theorem C42_lawful : Lawful Path.compare :=
  ⟨fun a b => by rw [compare_swap a b]; omega, compare_trans⟩

theorem elemCmp_zero {a b : Elem} (ha : Made a) (hb : Made b) : elemCmp a b = 0 ↔ a = b := by
  constructor
  · intro h
    have h1 := made_norm ha
    have h2 := made_norm hb
    unfold elemCmp at h
    by_cases ia : a.isIndex = true <;> by_cases ib : b.isIndex = true
    · simp only [ia, ib, if_true] at h h1 h2
      have : a.index = b.index := by repeat' split at h
                                     all_goals omega
      rw [← h1, ← h2, this]
    · simp [ia, ib] at h
    · simp [ia, ib] at h
    · rw [if_neg ia] at h h1
      rw [if_neg ib] at h h2
      have : a.key = b.key := by
        rw [← cmpBytes_eq_iff]
        revert h
        cases cmpBytes a.key b.key <;> simp [sgn]
      rw [← h1, ← h2, this]
  · rintro rfl
    unfold elemCmp
    split
    · simp
    · rw [cmpBytes_self]; rfl

/-- **C42.** The result is 0 exactly for paths with the same elements. -/
theorem C42_zero_iff_same : ∀ (p q : Path), (∀ e ∈ p, Made e) → (∀ e ∈ q, Made e) → (Path.compare p q = 0 ↔ p = q)
  | [], [], _, _ => by simp [Path.compare]
  | [], _ :: _, _, _ => by simp [Path.compare]
  | _ :: _, [], _, _ => by simp [Path.compare]
  | a :: p, b :: q, hp, hq => by
    have ih := C42_zero_iff_same p q (fun e he => hp e (by simp [he])) (fun e he => hq e (by simp [he]))
    have he := elemCmp_zero (hp a (by simp)) (hq b (by simp))
    rw [compare_cons, List.cons.injEq]
    by_cases h0 : elemCmp a b = 0
    · rw [if_neg (by simp [h0]), ih]
      exact ⟨fun h => ⟨he.1 h0, h⟩, fun h => h.2⟩
    · rw [if_pos h0]
      exact ⟨fun h => absurd h h0, fun h => absurd (he.2 h.1) h0⟩

example : Path.compare [mkIdx 1, mkKey [97]] [mkIdx 1, mkKey [98]] = -1 ∧ Path.compare [mkKey [97]] [mkIdx 7] = 1 := by
  decide +kernel

/-! ## C79 — copying a path to one block -/

/-- Bytes taken by the objects. -/
def objBytes (szP : Nat) : Nat → Path → Nat
  | _, [] => 0
  | szT, _ :: p => szT + objBytes szP szP p

/-- Bytes taken by the strings. -/
def strBytes : Path → Nat
  | [] => 0
  | e :: p => (if e.isIndex then 0 else e.key.length + 1) + strBytes p

theorem objBytes_mul (szP : Nat) (p : Path) : objBytes szP szP p = szP * p.length := by
  induction p with
  | nil => rfl
  | cons e p ih => rw [objBytes, ih, List.length_cons, Nat.mul_succ, Nat.add_comm]

theorem objLen_eq (szP szR : Nat) (p : Path) : objLen szP szR p = objBytes szP szR p := by
  cases p with
  | nil => rfl
  | cons e p => rw [objLen, objBytes, objBytes_mul]

theorem reqTail_eq (szP : Nat) (p : Path) : reqTail szP p = objBytes szP szP p + strBytes p := by
  induction p with
  | nil => rfl
  | cons e p ih => rw [reqTail, objBytes, strBytes, ih]; omega

theorem reqSize_eq (szP szR : Nat) (p : Path) : reqSize szP szR p = objBytes szP szR p + strBytes p := by
  cases p with
  | nil => rfl
  | cons e p => rw [reqSize, objBytes, strBytes, reqTail_eq]; omega

theorem copyRec_writes (szP : Nat) : ∀ (p : Path) (szT trg str : Nat), ∀ w ∈ (copyRec szP szT p trg str).1,
    (trg ≤ w.1 ∧ w.1 + w.2.length ≤ trg + objBytes szP szT p) ∨ (str ≤ w.1 ∧ w.1 + w.2.length ≤ str + strBytes p)
  | [], _, _, _, w, h => by simp [copyRec] at h
  | e :: p, szT, trg, str, w, h => by
    rw [copyRec] at h
    split at h
    · rename_i he
      simp only [List.mem_append, List.mem_singleton] at h
      rcases h with h | rfl
      · have := copyRec_writes szP p szP (trg + szT) str w h
        rw [objBytes, strBytes, if_pos he]; omega
      · rw [objBytes, List.length_replicate]; omega
    · rename_i he
      simp only [List.mem_append, List.mem_cons, List.not_mem_nil, or_false] at h
      rw [objBytes, strBytes, if_neg he]
      rcases h with (rfl | rfl | h) | rfl
      · right; dsimp only; omega
      · right; simp; omega
      · have := copyRec_writes szP p szP (trg + szT) _ w h
        omega
      · left; rw [List.length_replicate]; omega

theorem copyRec_strings (szP : Nat) : ∀ (p : Path) (szT trg str : Nat), ∀ c ∈ (copyRec szP szT p trg str).2,
    c.len = 0 ∨ (str ≤ c.str ∧ c.str + c.len ≤ str + strBytes p)
  | [], _, _, _, c, h => by simp [copyRec] at h
  | e :: p, szT, trg, str, c, h => by
    rw [copyRec] at h
    split at h
    · rename_i he
      rcases List.mem_cons.1 h with rfl | h
      · left; rfl
      · have := copyRec_strings szP p szP _ _ c h
        rw [strBytes, if_pos he]; omega
    · rename_i he
      rw [strBytes, if_neg he]
      rcases List.mem_cons.1 h with rfl | h
      · right; dsimp only; omega
      · have := copyRec_strings szP p szP _ _ c h
        omega

theorem read_write_other (m : Mem) (off : Nat) (bs : Bytes) (a n : Nat) (h : n = 0 ∨ a + n ≤ off ∨ off + bs.length ≤ a) :
    (m.write off bs).read a n = m.read a n := by
  unfold Mem.read
  refine List.map_congr_left (fun i hi => ?_)
  have := List.mem_range.1 hi
  rw [Mem.write, if_neg (by omega)]

theorem read_write_same (m : Mem) (off : Nat) (bs : Bytes) : (m.write off bs).read off bs.length = bs := by
  unfold Mem.read
  apply List.ext_getElem
  · simp
  · intro i h1 h2
    rw [List.getElem_map, List.getElem_range, Mem.write, if_pos (by omega), Nat.add_sub_cancel_left,
      List.getD_eq_getElem?_getD, List.getElem?_eq_getElem h2]
    rfl

theorem read_writes_other (ws : List (Nat × Bytes)) : ∀ (m : Mem) (a n : Nat),
    (∀ w ∈ ws, n = 0 ∨ a + n ≤ w.1 ∨ w.1 + w.2.length ≤ a) →
    (ws.foldl (fun m w => m.write w.1 w.2) m).read a n = m.read a n := by
  induction ws with
  | nil => intros; rfl
  | cons w ws ih =>
    intro m a n h
    rw [List.foldl_cons, ih _ a n (fun x hx => h x (by simp [hx])), read_write_other _ _ _ _ _ (h w (by simp))]

theorem copyRec_read (szP : Nat) : ∀ (p : Path) (szT trg str : Nat) (m : Mem), (∀ e ∈ p, Made e) →
    trg + objBytes szP szT p ≤ str →
    readBack ((copyRec szP szT p trg str).1.foldl (fun m w => m.write w.1 w.2) m) (copyRec szP szT p trg str).2 = p
  | [], _, _, _, _, _, _ => rfl
  | e :: p, szT, trg, str, m, hp, hle => by
    have hn := made_norm (hp e (by simp))
    rw [objBytes] at hle
    rw [copyRec]
    split
    · rename_i he
      rw [if_pos he] at hn
      have ih := copyRec_read szP p szP (trg + szT) str m (fun x hx => hp x (by simp [hx])) (by omega)
      have hs := copyRec_strings szP p szP (trg + szT) str
      generalize copyRec szP szP p (trg + szT) str = r at ih hs
      dsimp only
      rw [List.foldl_append, List.foldl_cons, List.foldl_nil, readBack, List.map_cons]
      congr 1
      conv_rhs => rw [← ih]
      rw [readBack]
      refine List.map_congr_left (fun c hc => ?_)
      have := hs c hc
      rw [read_write_other]
      rw [List.length_replicate]
      omega
    · rename_i he
      rw [if_neg he] at hn
      have ih := fun m => copyRec_read szP p szP (trg + szT) (str + e.key.length + 1) m (fun x hx => hp x (by simp [hx])) (by omega)
      have hs := copyRec_strings szP p szP (trg + szT) (str + e.key.length + 1)
      have hw := copyRec_writes szP p szP (trg + szT) (str + e.key.length + 1)
      generalize copyRec szP szP p (trg + szT) (str + e.key.length + 1) = r at ih hs hw
      dsimp only
      rw [List.foldl_append, List.foldl_cons, List.foldl_cons, List.foldl_cons, List.foldl_nil, readBack, List.map_cons]
      congr 1
      · rw [read_write_other _ _ _ _ _ (by rw [List.length_replicate]; dsimp only; omega), read_writes_other, read_write_other, read_write_same]
        · exact hn
        · dsimp only; omega
        · intro w hwm
          have := hw w hwm
          dsimp only
          omega
      · conv_rhs => rw [← ih ((m.write str e.key).write (str + e.key.length) [0])]
        rw [readBack]
        refine List.map_congr_left (fun c hc => ?_)
        have := hs c hc
        rw [read_write_other]
        rw [List.length_replicate]
        omega

/-- **C79.** All writes of `Path::copy` are inside the block of `reqSize` bytes it asked for, for all paths and all sizes
of the objects. -/
theorem C79_writes_inside (szP szR : Nat) (p : Path) (m : Mem) :
    ∀ w ∈ (copyPath szP szR p m).2.2, w.1 + w.2.length ≤ reqSize szP szR p := by
  intro w hw
  have := copyRec_writes szP p szR 0 _ w hw
  rw [reqSize_eq]
  rw [objLen_eq] at this
  omega

/-- **C79.** The copy, with its keys read from the block, has the elements of the original path whatever the block
contained before. -/
theorem C79_copy_equal (szP szR : Nat) (p : Path) (m : Mem) (hp : ∀ e ∈ p, Made e) :
    readBack (copyPath szP szR p m).1 (copyPath szP szR p m).2.1 = p :=
  copyRec_read szP p szR 0 _ m hp (by rw [objLen_eq]; omega)

example : (copyPath 2 3 [mkKey [97, 98], mkIdx 4, mkKey [99]] (fun _ => 7)).2.2 =
    [(7, [97, 98]), (9, [0]), (10, [99]), (11, [0]), (5, [0, 0]), (3, [0, 0]), (0, [0, 0, 0])] := by decide +kernel

end Imt.Props
