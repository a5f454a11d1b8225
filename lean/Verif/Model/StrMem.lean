import Verif.Model.Str
import Verif.Model.Binary
/-!
# Strings in memory (`stringValue.cpp`, `stringValue.h`, `string.cpp`, `value.cpp`, `key.h`)

Which memory the characters of a string occupy, where its terminating zero is, and which objects keep that memory alive.
Sizes are taken to be small enough that `size_t` sums do not wrap (for `join`, where they do, see `VOps.newString`).
-/
namespace Imt.StrMem
open Imt Imt.VOps

/-- A block of characters; `none` is a byte which has not been written. -/
abbrev Block := List (Option Nat)

/-- Copying bytes into a block (`memcpy`); outside of the block it is undefined. A copy of no bytes does nothing. -/
def put (b : Block) (p : Nat) (s : Bytes) : Res Block :=
  if p + s.length ≤ b.length then .ok (b.take p ++ s.map some ++ b.drop (p + s.length)) else .ub

/-- Reading one byte of a block; undefined outside of it and for a byte which has not been written. -/
def get (b : Block) (p : Nat) : Res Nat :=
  match b[p]? with
  | some (some c) => .ok c
  | _ => .ub

/-- `magic` (stringValue.cpp:18). -/
def magic : Bytes := ascii "imtjson"

/-- `StringValue::operator new` with `putMagic` (stringValue.cpp:20-24, stringValue.cpp:74-78): the bytes from
`charbuff` to the end of the allocation. The padding after `charbuff` (stringValue.h:40), which makes the block longer, is
left out. -/
def alloc (strsz : Nat) : Res Block := put (List.replicate (max (strsz + 1) magic.length) none) 0 magic

/-- `new(strsz) StringValue(enc, str)` (stringValue.cpp:26-31): `charbuff` and `sz`. -/
def newCopy (strsz : Nat) (str : Bytes) : Res (Block × Nat) := do
  let b ← alloc strsz
  if b.take magic.length ≠ magic.map some then .err
  else do
    let b ← put b 0 str
    let b ← put b str.length [0]
    pure (b, str.length)

/-- `new(strsz) StringValue(enc, strSz, fn)` (stringValue.h:48-57): `charbuff` and `sz`. -/
def newFill (strsz : Nat) (fn : Block → Res (Block × Nat)) : Res (Block × Nat) := do
  let b ← alloc strsz
  let b ← put b strsz [0]
  let r ← fn b
  if r.2 > strsz then .abort
  else do
    let z ← get r.1 strsz
    if z ≠ 0 then .abort
    else do
      let b ← put r.1 r.2 [0]
      pure (b, r.2)

/-- The object behind a value, with the identity of its allocation. `empty` is the shared empty string
(basicValues.cpp:30-33), never released. `str` is a `StringValue` with its encoding, `charbuff` and `sz`
(stringValue.h:38-40). `sub` is a `SubStrString` (string.cpp:164-178). `keyed` is a proxy (key.h:18-71). `plain` is any
object whose `getString` is the one of `AbstractValue` (abstractValue.h:20). Precise numbers, which keep a text too, are
left out, and so is `ObjWrap`. -/
inductive Obj where
  | empty
  | str (id : Nat) (enc : Option Binary.Coder) (blk : Block) (sz : Nat)
  | sub (id : Nat) (parent : Obj) (pos len : Nat)
  | keyed (id : Nat) (v : Obj)
  | plain (id : Nat)
deriving Repr, DecidableEq

/-- A pointer to characters: the null pointer, or a place in the block of an object. -/
abbrev Ptr := Option (Nat × Block × Nat)

/-- `StringView<char>` (absent submodule `shared`): `data` and `length`. -/
structure View where
  data : Ptr
  len : Nat
deriving Repr, DecidableEq

/-- `StringView::substr(pos, len)` (absent submodule `shared`): both are clamped, see `VOps.substr`. -/
def View.substr (v : View) (pos len : Nat) : View :=
  ⟨v.data.map (fun p => (p.1, p.2.1, p.2.2 + min pos v.len)), min len (v.len - min pos v.len)⟩

/-- `getString` (basicValues.cpp:32, stringValue.cpp:33-35, string.cpp:169-171, key.h:31, abstractValue.h:20). The
view without arguments is taken to be a null pointer and length zero. -/
def Obj.getString : Obj → View
  | .empty => ⟨none, 0⟩
  | .str id _ blk sz => ⟨some (id, blk, 0), sz⟩
  | .sub _ parent pos len => parent.getString.substr pos len
  | .keyed _ v => v.getString
  | .plain _ => ⟨none, 0⟩

/-- `unproxy` (abstractValue.h:29, key.h:37). -/
def Obj.unproxy : Obj → Obj
  | .keyed _ v => v.unproxy
  | v => v

/-- `type() == string`. -/
def Obj.isString : Obj → Bool
  | .empty | .str .. | .sub .. => true
  | .keyed _ v => v.isString
  | .plain _ => false

/-- The objects kept alive by a handle: reference counts count the pointers `parent` (string.cpp:175) and `value`
(key.h:41). -/
def Obj.keeps : Obj → List Nat
  | .empty => []
  | .str id _ _ _ => [id]
  | .sub id parent _ _ => id :: parent.keeps
  | .keyed id v => id :: v.keeps
  | .plain id => [id]

/-- `String::String(Value)` (string.cpp:29-30). -/
def ofValue (v : Obj) : Obj := v.unproxy

/-- `String::c_str`, also `String::begin` (string.cpp:122-124, string.h:163). -/
def cStr (s : Obj) : Ptr := s.getString.data

/-- `String::length` (string.cpp:55-57). -/
def length (s : Obj) : Nat := s.getString.len

/-- `StringValue::create(str)` (stringValue.cpp:96-99), also `Value(str)`, `String(str)` (value.cpp:43-53,
string.cpp:248-257). -/
def create (id : Nat) (s : Bytes) : Res Obj :=
  if s = [] then .ok .empty
  else do
    let r ← newCopy s.length s
    pure (.str id none r.1 r.2)

/-- `StringValue::create(str, enc)` (stringValue.cpp:107-111). -/
def createBin (id : Nat) (e : Binary.Coder) (s : Bytes) : Res Obj := do
  let r ← newCopy s.length s
  pure (.str id (some e) r.1 r.2)

/-- `String(sz, fillFn)` (string.cpp:32-33). -/
def ofFill (id sz : Nat) (fn : Block → Res (Block × Nat)) : Res Obj := do
  let r ← newFill sz fn
  pure (.str id none r.1 r.2)

/-- Reading `n` characters of a block from `off` on. -/
def readN (b : Block) : Nat → Nat → Res Bytes
  | _, 0 => .ok []
  | off, n + 1 => do
    let c ← get b off
    let r ← readN b (off + 1) n
    pure (c :: r)

/-- Reading a C string: up to the first zero. The number is the rest of the block. -/
def readZ (b : Block) : Nat → Nat → Res Bytes
  | _, 0 => .ub
  | off, n + 1 => do
    let c ← get b off
    if c = 0 then pure []
    else do
      let r ← readZ b (off + 1) n
      pure (c :: r)

/-- Use of a pointer by someone whose handles keep the objects `live`, for `n` characters. -/
def useN (live : List Nat) (p : Ptr) (n : Nat) : Res Bytes :=
  if n = 0 then .ok []
  else match p with
    | none => .ub
    | some (id, b, off) => if id ∈ live then readN b off n else .ub

/-- Use of a pointer as a C string (`strlen`, `printf`, `std::string(const char *)`). -/
def useZ (live : List Nat) (p : Ptr) : Res Bytes :=
  match p with
  | none => .ub
  | some (id, b, off) => if id ∈ live then readZ b off (b.length - off) else .ub

/-- The characters of a view, for someone who holds the object. -/
def Obj.text (v : Obj) : Res Bytes := useN v.keeps v.getString.data v.getString.len

/-- `flags() & binaryString` (stringValue.h:23, key.h:23). -/
def Obj.encoding : Obj → Option Binary.Coder
  | .str _ e _ _ => e
  | .keyed _ v => v.encoding
  | _ => none

/-- `Value::toString` of a string (value.cpp:74-80); `fresh` is the identity of an object made for the result
(binary.cpp:110-114, binary.cpp:144-153). -/
def toStr (fresh : Nat) (v : Obj) : Res Obj :=
  match v.encoding with
  | some e => do
    let d ← v.text
    let s ← e.encode d
    match e with
    | .utf8 => do
      let r ← newFill s.length (fun b => do
        let b ← put b 0 s
        pure (b, s.length))
      pure (.str fresh none r.1 r.2)
    | _ => create fresh s
  | none => .ok (ofValue v)

/-- `Value::getValueOrDefault(const char *)` (value.cpp:877-879). The `String` is gone when the pointer is used, so a
user has what the value keeps and what the default keeps. -/
def orCStr (fresh : Nat) (v : Obj) (defval : Ptr) : Res Ptr :=
  if v.isString then do
    let s ← toStr fresh v
    pure (cStr s)
  else .ok defval

/-- The filling function of `Value(string, values)` (value.cpp:423-429) and of `String({…})` (string.cpp:75-81): each
part is read through a pointer and a length and copied behind the previous one. -/
def copyAll (b : Block) (c : Nat) : List Obj → Res (Block × Nat)
  | [] => .ok (b, c)
  | x :: r => do
    let s ← useN x.keeps (cStr x) (length x)
    let b ← put b c s
    copyAll b (c + length x) r

/-- `Value(string, values)` (value.cpp:414-433), given the results of `toString`. -/
def concat (id : Nat) (l : List Obj) : Res Obj := do
  let needsz := (l.map length).sum
  let r ← newFill needsz (fun b => do
    let r ← copyAll b 0 l
    pure (r.1, needsz))
  pure (.str id none r.1 r.2)

/-- `String::split` (string.cpp:181-200): the parts as objects; `ids` are the identities of the new objects. The first
number is `maxCount`. Compare `Str.splitLoop`, which gives the contents only. -/
def splitLoop (s : Obj) (a sep : Bytes) (ids : Nat → Nat) : Nat → Nat → List Obj
  | 0, curPos => [if curPos = 0 then s else .sub (ids curPos) s curPos (sub64 a.length curPos)]
  | n + 1, curPos => match Str.indexOf a sep curPos with
    | none => [if curPos = 0 then s else .sub (ids curPos) s curPos (sub64 a.length curPos)]
    | some nextPos => .sub (ids curPos) s curPos (nextPos - curPos) :: splitLoop s a sep ids n (nextPos + sep.length)

end Imt.StrMem
