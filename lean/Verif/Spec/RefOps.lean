import Verif.Spec.ListOps
import Verif.Model.Value
/-!
# Specification of references to members and items

References with a kept copy of the value: reading shows the copy, assigning writes the container and the copy, `sync` renews the
copy. The container is a function from keys to values, or a list. Nothing here refers to builders.
-/
namespace Imt.Spec
open Imt

/-- Steps with references to members; references are numbered in the order they are made. -/
inductive RefOp where
  | make (k : Bytes)
  | assign (i : Nat) (v : JV)
  | copy (i j : Nat)
  | sync (i : Nat)
  | put (k : Bytes) (v : JV)

/-- Members (undefined when missing) and references. -/
abbrev RefSt := (Bytes → JV) × List (Bytes × JV)

/-- Changes one member. -/
def setAt (f : Bytes → JV) (k : Bytes) (v : JV) : Bytes → JV := fun k' => if k = k' then v else f k'

/-- Effect of a step. Steps with references that do not exist do nothing. -/
def RefOp.eff : RefOp → RefSt → RefSt
  | .make k, (f, r) => (f, r ++ [(k, f k)])
  | .assign i v, (f, r) => match r[i]? with
    | some x => (setAt f x.1 v, r.set i (x.1, v))
    | none => (f, r)
  | .copy i j, (f, r) => match r[i]?, r[j]? with
    | some x, some y => (setAt f x.1 y.2, r.set i (x.1, y.2))
    | _, _ => (f, r)
  | .sync i, (f, r) => match r[i]? with
    | some x => (f, r.set i (x.1, f x.1))
    | none => (f, r)
  | .put k v, (f, r) => (setAt f k v, r)

/-- Steps with references to items. -/
inductive IRefOp where
  | make (p : Nat)
  | assign (i : Nat) (v : JV)
  | copy (i j : Nat)
  | sync (i : Nat)
  | op (o : LOp JV)

/-- List it started from, current list, references with their positions. -/
abbrev IRefSt := (List JV × List JV) × List (Nat × JV)

/-- Effect of a step. -/
def IRefOp.eff : IRefOp → IRefSt → IRefSt
  | .make p, (l, r) => (l, r ++ [(p, l.2.getD p .undef)])
  | .assign i v, (l, r) => match r[i]? with
    | some x => ((l.1, l.2.set x.1 v), r.set i (x.1, v))
    | none => (l, r)
  | .copy i j, (l, r) => match r[i]?, r[j]? with
    | some x, some y => ((l.1, l.2.set x.1 y.2), r.set i (x.1, y.2))
    | _, _ => (l, r)
  | .sync i, (l, r) => match r[i]? with
    | some x => (l, r.set i (x.1, l.2.getD x.1 .undef))
    | none => (l, r)
  | .op o, (l, r) => (o.run l, r)

/-- The positions used are inside the list. -/
def IRefOp.Ok : IRefOp → IRefSt → Prop
  | .make p, (l, _) => p < l.2.length
  | .assign i _, (l, r) => ∀ x, r[i]? = some x → x.1 < l.2.length
  | .copy i _, (l, r) => ∀ x, r[i]? = some x → x.1 < l.2.length
  | .sync i, (l, r) => ∀ x, r[i]? = some x → x.1 < l.2.length
  | .op o, (l, _) => o.InRange l.2

/-- Every step is in range when its turn comes. -/
def IRefsOk : List IRefOp → IRefSt → Prop
  | [], _ => True
  | o :: os, s => o.Ok s ∧ IRefsOk os (o.eff s)

end Imt.Spec
