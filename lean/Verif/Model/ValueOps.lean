import Verif.Model.ArrayB
/-!
# Operations of `Value` on arrays (`value.cpp`), `String::splitAt`

The item type is a parameter; `isDef` is `Value::defined`, `undef` the undefined value. `Int` is a 64 bit signed integer
(`intptr_t`, ivalue.h), `int` has 32 bits.
-/
namespace Imt.VOps
open Imt

variable {α : Type}

/-- Array values: `ArrayValue` (arrayValue.h) and `SubArray` (value.cpp:196-228). -/
inductive Arr (α : Type) where
  | arr (l : List α)
  | sub (parent : Arr α) (start len : Nat)
deriving Repr, DecidableEq

/-- `size()` (arrayValue.cpp:11-14, value.cpp:210-212). -/
def Arr.size : Arr α → Nat
  | .arr l => l.length
  | .sub _ _ n => n

/-- `itemAtIndex` (arrayValue.cpp:16-20, value.cpp:213-215): `SubArray` does not look at its length. -/
def Arr.item (undef : α) : Arr α → Nat → α
  | .arr l, i => l.getD i undef
  | .sub p s _, i => p.item undef (s + i)

/-- What iteration shows (value.h `ValueIterator`, value.cpp:216-221, arrayValue.cpp:22-28). -/
def Arr.items (undef : α) (a : Arr α) : List α := (List.range a.size).map (a.item undef)

/-- Constructor of `SubArray` (value.cpp:199-208): a window of a window refers to the first parent. A window bound to a key is a
proxy, which the test of the dynamic type does not see; the items are the same. -/
def mkSub (p : Arr α) (start len : Nat) : Arr α :=
  match p with
  | .sub q s _ => .sub q (start + s) len
  | .arr _ => .sub p start len

/-- Conversion of an integer to `int` (modulo 2^32). -/
@[irreducible] def wrap32 (z : Int) : Int := (z + 2 ^ 31) % 2 ^ 32 - 2 ^ 31

/-- `Value::splitAt` for `pos > 0` (value.cpp:239-246). -/
def splitPos (a : Arr α) (pos : Nat) : Arr α × Arr α :=
  if pos < a.size then (mkSub a 0 pos, mkSub a pos (a.size - pos)) else (a, .arr [])

/-- `Value::splitAt(int)` on containers (value.cpp:231-256). `(int)sz + pos` is an `int` addition. -/
def splitAt (a : Arr α) (pos : Int) : Res (Arr α × Arr α) :=
  if pos > 0 then .ok (splitPos a pos.toNat)
  else if pos < 0 then
    let q := wrap32 a.size + pos
    if q < -2 ^ 31 then .ub
    else if q > 0 then .ok (splitPos a q.toNat) else .ok (.arr [], a)
  else .ok (.arr [], a)

/-- `StringView::substr(pos, len)` (absent submodule `shared`): both are clamped. -/
def substr (s : Bytes) (pos len : Nat) : Bytes := (s.drop pos).take len

/-- `size_t` subtraction, modulo 2^64. -/
@[irreducible] def sub64 (a b : Nat) : Nat := (a + 2 ^ 64 - b) % 2 ^ 64

/-- `(unsigned)pos`: the low 32 bits. -/
@[irreducible] def low32 (n : Nat) : Nat := n % 2 ^ 32

/-- `String::splitAt(Int)` for `pos > 0` (string.cpp:205-212): `(unsigned)pos` keeps 32 bits; the subtraction is modulo
2^64. `none` is the undefined value. -/
def strSplitPos (s : Bytes) (pos : Nat) : Option Bytes × Option Bytes :=
  if low32 pos < s.length then
    (some (substr s 0 pos), some (substr s pos (sub64 s.length pos)))
  else (some s, none)

/-- `String::splitAt(Int)` (string.cpp:202-221). -/
def strSplitAt (s : Bytes) (pos : Int) : Option Bytes × Option Bytes :=
  if pos > 0 then strSplitPos s pos.toNat
  else if pos < 0 then
    let q := wrap32 s.length + pos
    if q > 0 then strSplitPos s q.toNat else (none, some s)
  else (some s, none)

/-- `Value(array, StringView<Value>)` with the default `skipUndef` (value.cpp:378-389). -/
def ofItems (isDef : α → Bool) (l : List α) : Arr α := .arr (l.filter isDef)

/-- The copy loop of `slice` (value.cpp:845-849). -/
def sliceLoop (undef : α) (a : Arr α) : Nat → Nat → List α
  | 0, _ => []
  | n + 1, x => a.item undef x :: sliceLoop undef a n (x + 1)

/-- `Value::slice(start, end)` from value.cpp:843 on: both are not negative. -/
def slicePP (isDef : α → Bool) (undef : α) (a : Arr α) (start en : Int) : Arr α :=
  if start ≥ en ∨ start ≥ a.size then .arr []
  else
    let en := if en ≥ a.size then (a.size : Int) else en
    ofItems isDef (sliceLoop undef a (en - start).toNat start.toNat)

/-- From value.cpp:839 on: `start` is not negative. -/
def sliceP (isDef : α → Bool) (undef : α) (a : Arr α) (start en : Int) : Res (Arr α) :=
  if en < 0 then
    if en = -2 ^ 63 then .ub
    else if -en ≥ a.size then .ok (.arr []) else .ok (slicePP isDef undef a start (a.size + en))
  else .ok (slicePP isDef undef a start en)

/-- `Value::slice(start, end)` on arrays (value.cpp:832-857). Negating the smallest `Int` is undefined. -/
def slice (isDef : α → Bool) (undef : α) (a : Arr α) (start en : Int) : Res (Arr α) :=
  if a.size = 0 then .ok (.arr [])
  else if start < 0 then
    if start = -2 ^ 63 then .ub
    else if -start ≥ a.size then .ok a else sliceP isDef undef a (a.size + start) a.size
  else sliceP isDef undef a start en

/-- `Value::slice(start)` (value.cpp:829-831). -/
def slice1 (isDef : α → Bool) (undef : α) (a : Arr α) (start : Int) : Res (Arr α) := slice isDef undef a start a.size

/-- `Value::push` (value.cpp:786-791): the new array. The builder reads its base through `size()` and `operator[]`. -/
def push (isDef : α → Bool) (undef : α) (a : Arr α) (v : α) : Res (Arr α) := do
  let l ← ArrB.commit isDef undef (ArrB.add (ArrB.ofBase (a.items undef)) v)
  pure (.arr l)

/-- `Value::pop` (value.cpp:793-802): the value and what is left. -/
def pop (isDef : α → Bool) (undef : α) (a : Arr α) : Res (α × Arr α) :=
  if a.size = 0 then .ok (undef, a)
  else do
    let nw := ArrB.ofBase (a.items undef)
    let ret ← ArrB.get undef nw (a.size - 1)
    let nw ← ArrB.erase undef nw (a.size - 1)
    let l ← ArrB.commit isDef undef nw
    pure (ret, .arr l)

/-- `Value::shift` on arrays (value.cpp:757-772). -/
def shift (isDef : α → Bool) (undef : α) (a : Arr α) : Res (α × Arr α) := do
  let r ← slice1 isDef undef a 1
  pure (a.item undef 0, r)

/-- `Value::unshift(first, last)` (operations.h:516-529); `Value::unshift(item)` (value.cpp:774-783) is the case of one
item. -/
def unshift (isDef : α → Bool) (undef : α) (a : Arr α) (vs : List α) : Res (Arr α) := do
  let l ← ArrB.commit isDef undef ((a.items undef).foldl ArrB.add (vs.foldl ArrB.add ArrB.new))
  pure (.arr l)

/-- `Value::reverse` (value.cpp:340-346). -/
def reverse (isDef : α → Bool) (undef : α) (a : Arr α) : Res (Arr α) := do
  let l ← ArrB.commit isDef undef ((List.range a.size).foldl (fun o i => ArrB.add o (a.item undef (a.size - 1 - i))) ArrB.new)
  pure (.arr l)

/-- `Value::indexOf` (value.cpp:509-516), `n` items are left. `eq` is `operator==`; `none` is `npos`. -/
def indexLoop (eq : α → α → Bool) (undef : α) (a : Arr α) (v : α) : Nat → Nat → Option Nat
  | 0, _ => none
  | n + 1, i => if eq (a.item undef i) v then some i else indexLoop eq undef a v n (i + 1)

/-- `Value::indexOf` (value.cpp:509-516). -/
def indexOf (eq : α → α → Bool) (undef : α) (a : Arr α) (v : α) (start : Nat) : Option Nat :=
  indexLoop eq undef a v (a.size - start) start

/-- Loop of `Value::lastIndexOf` (value.cpp:519-522). -/
def lastLoop (eq : α → α → Bool) (undef : α) (a : Arr α) (v : α) : Nat → Option Nat
  | 0 => none
  | i + 1 => if eq (a.item undef i) v then some i else lastLoop eq undef a v i

/-- `Value::lastIndexOf` (value.cpp:517-525). -/
def lastIndexOf (eq : α → α → Bool) (undef : α) (a : Arr α) (v : α) (start : Nat) : Option Nat :=
  lastLoop eq undef a v (min start a.size)

/-- Loop of `Value::findIndex` (operations.h:544-549). -/
def findLoop (p : α → Nat → Bool) (undef : α) (a : Arr α) : Nat → Nat → Option Nat
  | 0, _ => none
  | n + 1, i => if p (a.item undef i) i then some i else findLoop p undef a n (i + 1)

/-- `Value::findIndex` (operations.h:544-549); `none` is -1. -/
def findIndex (p : α → Nat → Bool) (undef : α) (a : Arr α) : Option Nat := findLoop p undef a a.size 0

/-- Loop of `Value::rfindIndex` (operations.h:553-554). -/
def rfindLoop (p : α → Nat → Bool) (undef : α) (a : Arr α) : Nat → Option Nat
  | 0 => none
  | i + 1 => if p (a.item undef i) i then some i else rfindLoop p undef a i

/-- `Value::rfindIndex` (operations.h:551-556). -/
def rfindIndex (p : α → Nat → Bool) (undef : α) (a : Arr α) : Option Nat := rfindLoop p undef a a.size

/-- `Value::find`, `Value::rfind` (operations.h:557-568). -/
def at? (undef : α) (a : Arr α) : Option Nat → α
  | none => undef
  | some i => a.item undef i

/-- `Value::filter` on arrays (operations.h:569-581). -/
def filter (p : α → Nat → Bool) (isDef : α → Bool) (undef : α) (a : Arr α) : Arr α :=
  ofItems isDef (((List.range a.size).filter (fun i => p (a.item undef i) i)).map (a.item undef))

/-- `Array::map` (operations.h:416-423) used by `Value::map` (operations.h:336-343): the mapped items, undefined results
are dropped by `commit`. -/
def map (f : α → α) (isDef : α → Bool) (undef : α) (a : Arr α) : Res (Arr α) := do
  let l ← ArrB.commit isDef undef ((a.items undef).foldl (fun o x => ArrB.add o (f x)) ArrB.new)
  pure (.arr l)

/-- `genReduce` (operations.h:425-432), used by `Value::reduce`. -/
def reduce {β : Type} (f : β → α → β) (undef : α) (a : Arr α) (init : β) : β := (a.items undef).foldl f init

/-- Memory for a string of at most `strSz` characters: `StringValue::operator new` (stringValue.cpp:74-78) allocates
`hdr + max(strSz + 1, 7)` bytes modulo 2^64, `charbuff` is at `off`. The filling constructor (stringValue.h:48-56) writes
`charbuff[strSz]`, calls the function, and refuses a length above `strSz`. `fill` are the characters the function writes.
Requests of 2^63 bytes and more are refused by the allocator (`std::bad_alloc`), others are taken to succeed. -/
def newString (hdr off strSz : Nat) (fill : Bytes) : Res Bytes :=
  let total := (hdr + max ((strSz + 1) % 2 ^ 64) 7) % 2 ^ 64
  if total ≥ 2 ^ 63 then .err
  else if off + strSz ≥ total then .ub
  else if off + fill.length > total then .ub
  else if fill.length > strSz then .err
  else .ok fill

/-- The characters written by `join` (value.cpp:814-826). -/
def joinFill (sep : Bytes) : List Bytes → Bytes
  | [] => []
  | s :: r => s ++ r.flatMap (fun t => sep ++ t)

/-- `needsz` of `join` (value.cpp:805-813), modulo 2^64. -/
def joinSize (sep : Bytes) (l : List Bytes) : Nat :=
  ((l.map List.length).sum + ((l.length + 2 ^ 64 - 1) % 2 ^ 64) * sep.length) % 2 ^ 64

/-- `Value::join` (value.cpp:804-827); `str` is `toString`. -/
def join (hdr off : Nat) (str : α → Bytes) (undef : α) (a : Arr α) (sep : Bytes) : Res Bytes :=
  let l := (a.items undef).map str
  newString hdr off (joinSize sep l) (joinFill sep l)

end Imt.VOps
