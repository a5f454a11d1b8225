import Verif.Model.Base
/-!
# `NamedEnum` (`namedEnum.h`)

Enum values are integers.
-/
namespace Imt.NamedEnum
open Imt

/-- `NamedEnum::Def` (namedEnum.h:20-23). -/
structure Def where
  val : Int
  name : Bytes
deriving Repr, DecidableEq

/-- `cmpByVal` (namedEnum.h:56-58). -/
def cmpByVal (a b : Def) : Bool := a.val < b.val
/-- `cmpByName` (namedEnum.h:60-62). -/
def cmpByName (a b : Def) : Bool := ltBytes a.name b.name

/-- What `std::sort` guarantees: a permutation with no item before a smaller one. Which permutation is left open. -/
structure SortOf (lt : Def → Def → Bool) (x r : List Def) : Prop where
  perm : r.Perm x
  sorted : r.Pairwise (fun a b => lt b a = false)

/-- The object: the two sorted tables (namedEnum.h:53-54). -/
structure Obj where
  byVal : List Def
  byName : List Def
deriving Repr

/-- Constructor (namedEnum.h:26-38): the object may be made from the table. -/
structure Made (x : List Def) (o : Obj) : Prop where
  byVal : SortOf cmpByVal x o.byVal
  byName : SortOf cmpByName x o.byName

/-- `std::lower_bound` (halving loop of libstdc++): `p` tells whether the item is before the searched one. The result is the
position counted from the start of the list; `skip` items are already left out. -/
def lowerBound (p : Def → Bool) (l : List Def) (skip len : Nat) : Nat :=
  if len = 0 then skip
  else
    let half := len / 2
    match l[skip + half]? with
    | some x => if p x then lowerBound p l (skip + half + 1) (len - half - 1) else lowerBound p l skip half
    | none => skip
termination_by len
decreasing_by all_goals omega

/-- `NamedEnum::find` (namedEnum.h:109-121). -/
def find (o : Obj) (name : Bytes) : Option Int :=
  match o.byName[lowerBound (fun x => cmpByName x ⟨0, name⟩) o.byName 0 o.byName.length]? with
  | none => none
  | some f => if f.name = name then some f.val else none

/-- `operator[](name)` (namedEnum.h:92-107): the value, or the exception with the unknown name and the known names. -/
def byNameAt (o : Obj) (name : Bytes) : Except (Bytes × List Bytes) Int :=
  match o.byName[lowerBound (fun x => cmpByName x ⟨0, name⟩) o.byName 0 o.byName.length]? with
  | none => .error (name, o.byName.map (·.name))
  | some f => if f.name = name then .ok f.val else .error (name, o.byName.map (·.name))

/-- `operator[](val)` (namedEnum.h:123-130); the empty view when absent. -/
def byValAt (o : Obj) (val : Int) : Bytes :=
  match o.byVal[lowerBound (fun x => cmpByVal x ⟨val, []⟩) o.byVal 0 o.byVal.length]? with
  | none => []
  | some f => if f.val = val then f.name else []

/-- `allEnums` (namedEnum.h:134-148). The loop builds `res`, the function returns `cursep`. -/
def allEnums (o : Obj) (separator : Bytes) : Bytes :=
  (o.byName.foldl (fun (s : Bytes × Bytes) x => (s.1 ++ s.2 ++ x.name, separator)) ([], [])).2

end Imt.NamedEnum
