import Verif.Model.ObjB
/-!
# Recursive merge of objects (`object.cpp`)

Base objects without the diff flag at every level (`createDiff` is false, object.cpp:327).
-/
namespace Imt.ObjB
open Imt Imt.Obj

mutual
/-- Nesting of objects in objects: the depth of the recursion of `recursiveMerge`. -/
def jdepth : JV → Nat
  | .obj l => depthM l + 1
  | _ => 0
/-- The greatest depth of the members. -/
def depthM : List (Bytes × JV) → Nat
  | [] => 0
  | (_, v) :: r => max (jdepth v) (depthM r)
end

/-- `Object::recursiveMerge` (object.cpp:20-25), recursion bounded by `n`; `applyDiff` with a function on two objects
(object.cpp:313-321). -/
def recMergeF : Nat → JV → JV → JV
  | 0, _, d => d
  | n + 1, b, d => match b, d with
    | .obj b, .obj d => .obj (applyDiffImpl defd (recMergeF n) false b d)
    | _, d => d

/-- `Object::recursiveMerge` (object.cpp:20-25). The depth of the second argument bounds the recursion
(`C151_unfold`). -/
def recursiveMerge (b d : JV) : JV := recMergeF (jdepth d) b d

/-- `Object::applyDiff(baseObject, diffObject, mergeFn)` (object.cpp:313-321): a diff that is no object changes nothing, a
base that is no object counts as an empty one (and `mergeFn` is not passed on, object.cpp:317). -/
def applyDiffWith (mergeFn : JV → JV → JV) : JV → JV → JV
  | .obj b, .obj d => .obj (applyDiffImpl defd mergeFn false b d)
  | _, .obj d => .obj (applyDiffImpl defd defaultMerge false [] d)
  | b, _ => b

end Imt.ObjB
