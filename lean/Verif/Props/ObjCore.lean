import Verif.Lemmas.ObjCore
/-! # Properties of object construction and lookup: C23, C24, C31 -/
namespace Imt.Props
open Imt Obj Spec

/-- C23: an object built from any list of keyed values has strictly increasing (hence unique) keys, and each key has
the last value given for it; with `skipUndef` the undefined entries count for nothing. -/
theorem C23_canonical {α : Type} (isDef : α → Bool) (skipUndef : Bool) (values : List (Bytes × α)) :
    StrictSorted (mkObject isDef skipUndef values) ∧
    ∀ k, lookup (mkObject isDef skipUndef values) k =
      lastVal (values.filter (fun m => !skipUndef || isDef m.2)) k := by
  refine ⟨mkObject_sorted _ _ _, fun k => ?_⟩
  rw [lookup_eq_lastVal (mkObject_sorted _ _ _), mkObject_lastVal]
  congr 1
  unfold kept
  cases skipUndef
  · simp
  · simp

/-- C23: no key is invented, none is lost. -/
theorem C23_keys {α : Type} (isDef : α → Bool) (values : List (Bytes × α)) (k : Bytes) :
    k ∈ (mkObject isDef false values).map (·.1) ↔ k ∈ values.map (·.1) :=
  mkObject_keys isDef false values k

example : mkObject (fun _ => true) false [(ascii "b", 1), (ascii "a", 2), (ascii "b", 3), (ascii "", 4)] =
    [(ascii "", 4), (ascii "a", 2), (ascii "b", 3)] := by decide +kernel

/-- C24: on every canonical object the binary search finds exactly the member, or reports absence. -/
theorem C24_member {α : Type} (o : List (Bytes × α)) (hs : StrictSorted o) (k : Bytes) :
    member o k = lookup o k := member_eq_lookup hs k

/-- C24 on constructed objects: no hypothesis left. -/
theorem C24_member_constructed {α : Type} (isDef : α → Bool) (values : List (Bytes × α)) (k : Bytes) :
    member (mkObject isDef false values) k = lastVal values k := by
  rw [member_eq_lookup (mkObject_sorted _ _ _), (C23_canonical isDef false values).2]
  simp

example : StrictSorted [(ascii "", 4), (ascii "a", 2), (ascii "b", 3)] := by decide

/-- C31: lists describing the same map build identical objects (hence equal ones, whatever equality is used on the
member values). -/
theorem C31_order_independent {α : Type} (isDef : α → Bool) (l l' : List (Bytes × α))
    (h : ∀ k, lastVal l k = lastVal l' k) : mkObject isDef false l = mkObject isDef false l' := by
  apply eq_of_lookup_eq (mkObject_sorted _ _ _) (mkObject_sorted _ _ _)
  intro k
  rw [(C23_canonical isDef false l).2, (C23_canonical isDef false l').2]
  simpa using h k

example : ∀ k, lastVal [(ascii "b", 1), (ascii "a", 2)] k = lastVal [(ascii "a", 7), (ascii "a", 2), (ascii "b", 1)] k := by
  intro k
  by_cases h1 : ascii "b" = k <;> by_cases h2 : ascii "a" = k <;> simp [lastVal, h1, h2]
  subst h1; simp [ascii] at h2

end Imt.Props
