import Verif.Model.ArrayB
import Verif.Model.ObjB
import Verif.Model.Str
/-!
# `Value::merge`, `Value::diff` (`value.cpp`)

Parameters: `eq` is `operator==` on values, `add`/`sub` the sum and the difference of two numbers as doubles.
-/
namespace Imt.Merge
open Imt Imt.Obj Imt.ObjB

/-- `set` calls of the object case of `merge` (value.cpp:593-620), in order. -/
def mergeSets (m1 m2 : Members JV) : Members JV :=
  match m1, m2 with
  | [], ds => ds
  | b :: bs, [] => b :: bs
  | (k, v) :: bs, (k', w) :: ds =>
    match cmpBytes k k' with
    | .lt => (k, v) :: mergeSets bs ((k', w) :: ds)
    | .gt => (k', w) :: mergeSets ((k, v) :: bs) ds
    | .eq =>
      (match _hv : v, _hw : w with
        | .obj x, .obj y => (k, .obj (ObjB.commit defd (record defd new (mergeSets x y))).1)
        | _, _ => (k', w)) :: mergeSets bs ds
termination_by sizeOf m1 + sizeOf m2
decreasing_by
  all_goals (try subst _hv); (try subst _hw); simp; try omega

/-- Object case of `merge` (value.cpp:593-620). -/
def mergeObj (m1 m2 : Members JV) : Members JV := (ObjB.commit defd (record defd new (mergeSets m1 m2))).1

/-- One of the two loops of `findInArray` (value.cpp:528-535, 536-543): from `i`, `n` steps. -/
def findLoop (eq : JV → JV → Bool) (p : ArrB.AB JV) (v : JV) : Nat → Nat → Res (Option Nat)
  | 0, _ => .ok none
  | n + 1, i => do
    let x ← ArrB.get .undef p i
    if eq x v then pure (some i) else findLoop eq p v n (i + 1)

/-- `findInArray` (value.cpp:527-546): from `start` to the end, then from 0 to `start`. -/
def findInArray (eq : JV → JV → Bool) (p : ArrB.AB JV) (v : JV) (start : Nat) : Res (Option Nat) := do
  match ← findLoop eq p v (ArrB.size p - start) start with
  | some i => pure (some i)
  | none => findLoop eq p v start 0

/-- Pairs behind an undefined item (value.cpp:568-587). -/
def mergeEdits (eq : JV → JV → Bool) : List JV → Nat → ArrB.AB JV → Res (ArrB.AB JV)
  | find :: ins :: r, lastPos, p => do
    match ← findInArray eq p find lastPos with
    | some pos =>
      if defd ins then do
        let p ← ArrB.insert .undef p pos ins
        mergeEdits eq r (pos + 1) p
      else do
        let p ← ArrB.erase .undef p pos
        mergeEdits eq r lastPos p
    | none => mergeEdits eq r lastPos (if defd ins then ArrB.add p ins else p)
  | _, _, p => .ok p

/-- Loop of the array case of `merge` (value.cpp:558-591). -/
def mergeArr (eq : JV → JV → Bool) : List JV → ArrB.AB JV → Res (ArrB.AB JV)
  | [], p => .ok p
  | v :: r, p => if defd v then mergeArr eq r (ArrB.add p v) else mergeEdits eq r 0 p

/-- `Value::merge` (value.cpp:548-625). -/
def merge (eq : JV → JV → Bool) (add : JNum → JNum → JV) : JV → JV → Res JV
  | .undef, .undef => .ok .undef
  | .null, .null => .ok .null
  | .bool a, .bool b => .ok (.bool (a != b))
  | .num a, .num b => .ok (add a b)
  | .str a, .str b => do pure (.str (← Str.concat [a, b]))
  | .arr a, .arr b => do
    let p ← mergeArr eq b (ArrB.ofBase a)
    pure (.arr (← ArrB.commit defd .undef p))
  | .obj a, .obj b => .ok (.obj (mergeObj a b))
  | _, _ => .ok .undef

/-- `set`/`unset` calls of the object case of `diff` (value.cpp:691-719), in order. -/
def diffSets (neq : JV → JV → Bool) (m1 m2 : Members JV) : Members JV :=
  match m1, m2 with
  | [], ds => ds
  | b :: bs, [] => (b :: bs).map (fun m => (m.1, JV.undef))
  | (k, v) :: bs, (k', w) :: ds =>
    match cmpBytes k k' with
    | .lt => (k, .undef) :: diffSets neq bs ((k', w) :: ds)
    | .gt => (k', w) :: diffSets neq ((k, v) :: bs) ds
    | .eq =>
      (match _hv : v, _hw : w with
        | .obj x, .obj y =>
          let d := (ObjB.commitAsDiff defd (record defd new (diffSets neq x y))).1
          if d = [] then [] else [(k, .obj d)]
        | v, w => if neq v w then [(k', w)] else []) ++ diffSets neq bs ds
termination_by sizeOf m1 + sizeOf m2
decreasing_by
  all_goals (try subst _hv); (try subst _hw); simp; try omega

/-- Object case of `diff` (value.cpp:691-719). -/
def diffObj (neq : JV → JV → Bool) (m1 m2 : Members JV) : Members JV :=
  (ObjB.commitAsDiff defd (record defd new (diffSets neq m1 m2))).1

/-- Main loop of the array case of `diff` (value.cpp:651-673): `diff`, `t`, `o` at its end. Each step advances `t` or `o`. -/
def diffMain (eq : JV → JV → Bool) (a b : List JV) (t o : Nat) (diff : List JV) : List JV × Nat × Nat :=
  if _h : t < a.length ∧ o < b.length then
    let x := a.getD t .undef
    let y := b.getD o .undef
    if eq x y then diffMain eq a b (t + 1) (o + 1) diff
    else if t + 1 < a.length ∧ eq (a.getD (t + 1) .undef) y then diffMain eq a b (t + 1) o (diff ++ [x, .undef])
    else if o < b.length ∧ eq x (b.getD (o + 1) .undef) then diffMain eq a b t (o + 1) (diff ++ [x, y])
    else diffMain eq a b (t + 1) (o + 1) (diff ++ [x, y, x, .undef])
  else (diff, t, o)
termination_by (a.length - t) + (b.length - o)

/-- First tail loop (value.cpp:676-679): `o` does not change inside. The fuel counts iterations. -/
def tailO (b : List JV) : Nat → Nat → Nat → List JV → Res (Nat × List JV)
  | fuel, t, o, app => if o < b.length then
      match fuel with
      | 0 => .fuel
      | fuel + 1 => tailO b fuel (t + 1) o (app ++ [b.getD o .undef])
    else .ok (t, app)

/-- Second tail loop (value.cpp:680-684): `t` does not change inside. -/
def tailT (a : List JV) : Nat → Nat → Nat → List JV → Res (List JV)
  | fuel, t, o, diff => if t < a.length then
      match fuel with
      | 0 => .fuel
      | fuel + 1 => tailT a fuel t (o + 1) (diff ++ [a.getD t .undef, .undef])
    else .ok diff

/-- Array case of `diff` (value.cpp:645-690): each of the tail loops may do `fuel` iterations. The result keeps the undefined items
(`Value(StringView<Value>)`, value.cpp:54-59). -/
def diffArr (eq : JV → JV → Bool) (fuel : Nat) (a b : List JV) : Res (List JV) := do
  let (diff, t, o) := diffMain eq a b 0 0 []
  let (t, app) ← tailO b fuel t o []
  let diff ← tailT a fuel t o diff
  pure (if diff = [] then app else app ++ (.undef :: diff))

/-- String case of `diff` (value.cpp:634-644): a suffix is removed. -/
def diffStr (a b : Bytes) : Bytes :=
  if a.length < b.length then a
  else if VOps.substr a (a.length - b.length) a.length = b then VOps.substr a 0 (a.length - b.length)
  else a

/-- `Value::diff` (value.cpp:627-724). -/
def diff (eq : JV → JV → Bool) (sub : JNum → JNum → JV) (fuel : Nat) : JV → JV → Res JV
  | .undef, .undef => .ok .undef
  | .null, .null => .ok .null
  | .bool a, .bool b => .ok (.bool (a != b))
  | .num a, .num b => .ok (sub a b)
  | .str a, .str b => .ok (.str (diffStr a b))
  | .arr a, .arr b => do pure (.arr (← diffArr eq fuel a b))
  | .obj a, .obj b => .ok (.obj (diffObj (fun x y => !eq x y) a b))
  | _, _ => .ok .undef

end Imt.Merge
