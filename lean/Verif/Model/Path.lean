import Verif.Model.ArrayB
import Verif.Model.ObjB
/-!
# Paths (`path.h`, `path.cpp`) and `Value::replace` (`value.cpp`)

A path is the list of its elements from the leaf to the root; the root is the empty list. (`isRoot` compares addresses,
path.h:73; paths made by `operator/` and `copy` from `Path::root` are meant.)
-/
namespace Imt.Path
open Imt

/-- `(UInt)-1`. -/
@[irreducible] def noIndex : Nat := 2 ^ 64 - 1

/-- One element (path.h:169-172). -/
structure Elem where
  key : Bytes
  index : Nat
deriving Repr, DecidableEq

/-- `Path(parent, key)` (path.h:42). -/
def mkKey (k : Bytes) : Elem := ⟨k, noIndex⟩
/-- `Path(parent, index)` (path.h:49). -/
def mkIdx (i : Nat) : Elem := ⟨[], i⟩
/-- `isIndex` (path.h:68). -/
def Elem.isIndex (e : Elem) : Bool := e.index != noIndex

/-- Path, leaf first. -/
abbrev Path := List Elem

/-- `Value::operator[](uintptr_t)` (value.h:359; arrayValue.cpp:16-20, objectValue.cpp:13-17, abstractValue.h:22), for containers
with less than 2^32 items. -/
def itemAt : JV → Nat → JV
  | .arr l, i => l.getD i .undef
  | .obj l, i => (l[i]?.map (·.2)).getD .undef
  | _, _ => .undef

/-- `Value::operator[](StringView)` (value.h:365; objectValue.cpp:27-31, abstractValue.h:23). -/
def memberOf : JV → Bytes → JV
  | .obj l, k => (Obj.member l k).getD .undef
  | _, _ => .undef

/-- `Value::operator[](const Path &)` (path.cpp:27-38). -/
def getPath (v : JV) : Path → JV
  | [] => v
  | e :: parent =>
    let sub := getPath v parent
    if e.isIndex then itemAt sub e.index else memberOf sub e.key

/-- The value put at the end of the path (value.cpp:441-455); `diff` is the diff flag of the new value. -/
def putRoot (diff : Bool) (newVal old : JV) : JV :=
  if diff then
    match newVal with
    | .obj d => match old with
      | .obj b => .obj (ObjB.applyDiff JV.defined false b d)
      | _ => .obj (ObjB.applyDiff JV.defined false [] d)
    | v => v
  else newVal

/-- `Array a; if (oldVal.type() == array) a.setBaseObject(oldVal)` (value.cpp:458-460). -/
def arrBase : JV → ArrB.AB JV
  | .arr l => ArrB.setBase ArrB.new l
  | _ => ArrB.new

/-- `Object o; if (oldVal.type() == object) o.setBaseObject(oldVal)` (value.cpp:466-467). Objects inside the old value do not
carry the diff flag. -/
def objBase : JV → ObjB.OB JV
  | .obj l => ObjB.setBase ObjB.new l
  | _ => ObjB.new

/-- `setToPathRev` (value.cpp:440-473); the path starts with the element next to the root. -/
def setToPathRev (diff : Bool) (newVal : JV) : Path → JV → Res JV
  | [], old => .ok (putRoot diff newVal old)
  | e :: rest, old =>
    if e.isIndex then
      if e.index ≥ ArrB.size (arrBase old) then do
        let x ← setToPathRev diff newVal rest .undef
        let l ← ArrB.commit JV.defined .undef (ArrB.add (arrBase old) x)
        pure (.arr l)
      else do
        let o ← ArrB.get .undef (arrBase old) e.index
        let x ← setToPathRev diff newVal rest o
        let a ← ArrB.set .undef (arrBase old) e.index x
        let l ← ArrB.commit JV.defined .undef a
        pure (.arr l)
    else do
      let r ← ObjB.get JV.defined .undef (objBase old) e.key
      let x ← setToPathRev diff newVal rest r.1
      pure (.obj (ObjB.commit JV.defined (ObjB.set JV.defined r.2 e.key x)).1)

/-- `reversePath` (value.cpp:475-483): the reversed path. -/
def revPath : Path → Path → Path
  | [], acc => acc
  | e :: parent, acc => revPath parent ((if e.isIndex then mkIdx e.index else mkKey e.key) :: acc)

/-- `Value::replace(path, val)` (value.cpp:485-489). -/
def replace (v : JV) (p : Path) (val : JV) (diff : Bool := false) : Res JV := setToPathRev diff val (revPath p []) v

/-- `Path::toArray` (path.cpp:130-138). -/
def toArray : Path → ArrB.AB JV → ArrB.AB JV
  | [], a => a
  | e :: parent, a => ArrB.add (toArray parent a) (if e.isIndex then .num (.uint e.index) else .str e.key)

/-- `Path::toValue` (path.cpp:124-128). -/
def toValue (p : Path) : Res JV := do
  let l ← ArrB.commit JV.defined .undef (toArray p ArrB.new)
  pure (.arr l)

/-- `getUInt` of a number (basicValues.h:100): integers modulo 2^64; `other` are the remaining kinds. -/
def numUInt (other : JNum → Nat) : JNum → Nat
  | .uint n => n
  | .int i => (i % 2 ^ 64).toNat
  | n => other n

/-- `Value::size` (arrayValue.cpp:11-14, objectValue.cpp:8-11, abstractValue.h:21). -/
def sizeOf : JV → Nat
  | .arr l => l.length
  | .obj l => l.length
  | _ => 0

/-- `PPath::fromValue(parent, v, offset)` (path.cpp:177-192), `n` items are left. -/
def fromLoop (other : JNum → Nat) (v : JV) : Nat → Path → Nat → Res Path
  | 0, parent, _ => .ok parent
  | n + 1, parent, offset =>
    match itemAt v offset with
    | .str k => fromLoop other v n (mkKey k :: parent) (offset + 1)
    | .num x => fromLoop other v n (mkIdx (numUInt other x) :: parent) (offset + 1)
    | _ => .err

/-- `PPath::fromValue(v)` (path.cpp:202-204). `copy` gives an equal path, see `copyRec`. -/
def fromValue (other : JNum → Nat) (v : JV) : Res Path := fromLoop other v (sizeOf v) [] 0

/-- Sign of a comparison. -/
def sgn : Ordering → Int
  | .lt => -1
  | .eq => 0
  | .gt => 1

/-- `Path::compare` (path.cpp:147-165). -/
def compare : Path → Path → Int
  | [], [] => 0
  | [], _ :: _ => -1
  | _ :: _, [] => 1
  | a :: pa, b :: pb =>
    if a.isIndex then
      if b.isIndex then
        if a.index < b.index then -1 else if a.index > b.index then 1 else compare pa pb
      else -1
    else if b.isIndex then 1
    else if sgn (cmpBytes a.key b.key) ≠ 0 then sgn (cmpBytes a.key b.key) else compare pa pb

/-! ### `Path::copy` -/

/-- Memory of the allocated block. -/
abbrev Mem := Nat → Nat

/-- Writing bytes. -/
def Mem.write (m : Mem) (off : Nat) (bs : Bytes) : Mem :=
  fun a => if off ≤ a ∧ a < off + bs.length then bs.getD (a - off) 0 else m a

/-- Reading bytes. -/
def Mem.read (m : Mem) (off len : Nat) : Bytes := (List.range len).map (fun i => m (off + i))

/-- `reqSize` (path.cpp:50-64) for the elements after the first one; `szP = sizeof(Path)`. -/
def reqTail (szP : Nat) : Path → Nat
  | [] => 0
  | e :: p => szP + (if e.isIndex then 0 else e.key.length + 1) + reqTail szP p

/-- Number of bytes requested for strings and objects (path.cpp:46-64); `szR = sizeof(PathRef)`. -/
def reqSize (szP szR : Nat) : Path → Nat
  | [] => 0
  | e :: p => szR + (if e.isIndex then 0 else e.key.length + 1) + reqTail szP p

/-- `len` (path.cpp:50-62). -/
def objLen (szP szR : Nat) : Path → Nat
  | [] => 0
  | _ :: p => szR + szP * p.length

/-- An element of the copy: where its string is, and its index. -/
structure Copied where
  str : Nat
  len : Nat
  index : Nat
deriving Repr, DecidableEq

/-- `copyRecurse` (path.cpp:78-108): the writes in order, and the elements made. `szT` is the size of the object at
`trg`, the next ones have the size `szP`. Contents of objects are represented by zeros. -/
def copyRec (szP : Nat) : Nat → Path → Nat → Nat → List (Nat × Bytes) × List Copied
  | _, [], _, _ => ([], [])
  | szT, e :: parent, trg, str =>
    if e.isIndex then
      let r := copyRec szP szP parent (trg + szT) str
      (r.1 ++ [(trg, List.replicate szT 0)], ⟨0, 0, e.index⟩ :: r.2)
    else
      let r := copyRec szP szP parent (trg + szT) (str + e.key.length + 1)
      ((str, e.key) :: (str + e.key.length, [0]) :: r.1 ++ [(trg, List.replicate szT 0)], ⟨str, e.key.length, noIndex⟩ :: r.2)

/-- `Path::copy` (path.cpp:43-75) on a block of `reqSize + 8` bytes: the memory, the elements and the writes. -/
def copyPath (szP szR : Nat) (p : Path) (m : Mem) : Mem × List Copied × List (Nat × Bytes) :=
  let r := copyRec szP szR p 0 (objLen szP szR p)
  (r.1.foldl (fun m w => m.write w.1 w.2) m, r.2, r.1)

/-- The path a copy denotes: keys are read from the memory. -/
def readBack (m : Mem) (l : List Copied) : Path := l.map (fun c => ⟨m.read c.str c.len, c.index⟩)

end Imt.Path
