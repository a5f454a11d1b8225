import Verif.Spec.MapOps
import Verif.Spec.ListOps
import Verif.Model.Value
/-!
# Specification of nested editing

Scripts that edit a tree in place: change a member or item, or go into one and edit there. Nothing here refers to builders.
-/
namespace Imt.Spec
open Imt

mutual
/-- Steps on an object. `obj` and `arr` edit the member as an object or array. -/
inductive OAct where
  | done
  | set (k : Bytes) (v : JV) (next : OAct)
  | obj (k : Bytes) (inner : OAct) (next : OAct)
  | arr (k : Bytes) (inner : AAct) (next : OAct)
/-- Steps on an array. -/
inductive AAct where
  | done
  | op (o : LOp JV) (next : AAct)
  | obj (i : Nat) (inner : OAct) (next : AAct)
  | arr (i : Nat) (inner : AAct) (next : AAct)
end

/-- Not the undefined value. -/
def isDefd : JV → Bool
  | .undef => false
  | _ => true

/-- Members with smaller and with greater key. -/
def below (m : List (Bytes × JV)) (k : Bytes) : List (Bytes × JV) := m.filter (fun x => cmpBytes x.1 k == .lt)
def above (m : List (Bytes × JV)) (k : Bytes) : List (Bytes × JV) := m.filter (fun x => cmpBytes k x.1 == .lt)

/-- Sets a member. -/
def put (m : List (Bytes × JV)) (k : Bytes) (v : JV) : List (Bytes × JV) := below m k ++ (k, v) :: above m k

/-- Sets a member, or removes it when the value is undefined. -/
def assign (m : List (Bytes × JV)) (k : Bytes) (v : JV) : List (Bytes × JV) :=
  if isDefd v then put m k v else below m k ++ above m k

/-- Editing a member as an object. A member that is no object is replaced by a new object, but only if a step was made (`t`). -/
def editObj (m : List (Bytes × JV)) (k : Bytes) (f : List (Bytes × JV) → List (Bytes × JV)) (t : Bool) : List (Bytes × JV) :=
  match lookup m k with
  | some (.obj ms) => put m k (.obj (f ms))
  | _ => if t then put m k (.obj (f [])) else m

/-- Editing a member as an array; `f` is given the items. Undefined items vanish. A member that is no array is replaced if the new
list is not empty. -/
def editArr (m : List (Bytes × JV)) (k : Bytes) (f : List JV → List JV) : List (Bytes × JV) :=
  match lookup m k with
  | some (.arr l) => put m k (.arr ((f l).filter isDefd))
  | _ => if (f []).isEmpty then m else put m k (.arr ((f []).filter isDefd))

/-- Editing an item as an object. -/
def editItemObj (l : List JV) (i : Nat) (f : List (Bytes × JV) → List (Bytes × JV)) (t : Bool) : List JV :=
  match l[i]? with
  | some (.obj ms) => l.set i (.obj (f ms))
  | _ => if t then l.set i (.obj (f [])) else l

/-- Editing an item as an array. -/
def editItemArr (l : List JV) (i : Nat) (f : List JV → List JV) : List JV :=
  match l[i]? with
  | some (.arr x) => l.set i (.arr ((f x).filter isDefd))
  | _ => if (f []).isEmpty then l else l.set i (.arr ((f []).filter isDefd))

mutual
/-- Effect of a script on the members of an object. -/
def OAct.eff : OAct → List (Bytes × JV) → List (Bytes × JV)
  | .done, m => m
  | .set k v n, m => n.eff (assign m k v)
  | .obj k a n, m => n.eff (editObj m k a.eff a.touches)
  | .arr k a n, m => n.eff (editArr m k (fun l => a.eff l l))
/-- Effect on the items of an array; `b` are the items it had at the beginning (for `revert`). -/
def AAct.eff (b : List JV) : AAct → List JV → List JV
  | .done, l => l
  | .op o n, l => n.eff b (o.run (b, l)).2
  | .obj i a n, l => n.eff b (editItemObj l i a.eff a.touches)
  | .arr i a n, l => n.eff b (editItemArr l i (fun x => a.eff x x))
/-- Whether a script does anything to an empty object. -/
def OAct.touches : OAct → Bool
  | .done => false
  | .set _ _ _ => true
  | .obj _ a n => a.touches || n.touches
  | .arr _ a n => !(a.eff [] []).isEmpty || n.touches
end

/-- Members the editing of which is specified: canonical objects. -/
def objOk (P : List (Bytes × JV) → Prop) : Option JV → Prop
  | some (.obj ms) => StrictSorted ms ∧ P ms
  | _ => P []

/-- Arrays without undefined items; an object must not be edited as an array. -/
def arrOk (P : List JV → Prop) : Option JV → Prop
  | some (.arr l) => (∀ x ∈ l, isDefd x = true) ∧ P l
  | some (.obj _) => False
  | _ => P []

mutual
/-- The positions are in range, and `reverse` is not used. -/
def OAct.Legal : OAct → List (Bytes × JV) → Prop
  | .done, _ => True
  | .set k v n, m => n.Legal (assign m k v)
  | .obj k a n, m => objOk a.Legal (lookup m k) ∧ n.Legal (editObj m k a.eff a.touches)
  | .arr k a n, m => arrOk (fun l => a.Legal l l) (lookup m k) ∧ n.Legal (editArr m k (fun l => a.eff l l))
/-- See `OAct.Legal`. -/
def AAct.Legal (b : List JV) : AAct → List JV → Prop
  | .done, _ => True
  | .op o n, l => o.InRange l ∧ (∀ x, o.run (b, x) = (b, (o.run (b, x)).2)) ∧ n.Legal b (o.run (b, l)).2
  | .obj i a n, l => i < l.length ∧ objOk a.Legal l[i]? ∧ n.Legal b (editItemObj l i a.eff a.touches)
  | .arr i a n, l => i < l.length ∧ arrOk (fun x => a.Legal x x) l[i]? ∧ n.Legal b (editItemArr l i (fun x => a.eff x x))
end

end Imt.Spec
