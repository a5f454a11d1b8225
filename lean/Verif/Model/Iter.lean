import Verif.Model.Value
/-!
# Iterators of values and `walk` (`value.h`)

`UInt` is a 64-bit unsigned number, `int` has 32 bits.
-/
namespace Imt.Iter
open Imt

/-- The containers in memory by address: the pointers in each, in storage order (`Container::items`, container.h:72-75). Values
that are not containers have no items. Addresses are those after `unproxy()`. -/
abbrev Heap (α : Type) := Nat → List α

/-- `ValueIterator` (value.h:1188-1193): a value and an index of the type `UInt`. -/
structure It where
  v : Nat
  index : Nat
deriving Repr, DecidableEq

/-- `ArrayValue::itemAtIndex` (arrayValue.cpp:16-20), `ObjectValue::itemAtIndex` (objectValue.cpp:13-17): the test uses the whole
index, `Container::operator[]` (container.h:102-110) takes an `unsigned int`. `none` is undefined. -/
def itemAt (l : List α) (i : Nat) : Option α := if i < l.length then l[i % 2 ^ 32]? else none

/-- `operator*` (value.h:1194). -/
def It.deref (hp : Heap α) (it : It) : Option α := itemAt (hp it.v) it.index

/-- `operator++` (value.h:1195). -/
def It.inc (it : It) : It := { it with index := (it.index + 1) % 2 ^ 64 }

/-- `operator--` (value.h:1197). -/
def It.dec (it : It) : It := { it with index := (it.index + (2 ^ 64 - 1)) % 2 ^ 64 }

/-- `atEnd` (value.h:1208-1210). -/
def It.atEnd (hp : Heap α) (it : It) : Bool := decide ((hp it.v).length ≤ it.index)

/-- `operator==` (value.h:1200-1203); `isCopyOf` (value.h:851-853) compares addresses. -/
def It.eq (hp : Heap α) (a b : It) : Bool := (b.atEnd hp && a.atEnd hp) || (a.index == b.index && a.v == b.v)

/-- Conversion to `int` of a number of 64 bits. -/
def toInt32 (n : Int) : Int := (n + 2 ^ 31) % 2 ^ 32 - 2 ^ 31

/-- `operator+=(int)`, `operator+(int)` (value.h:1214, 1216) called with a number of the type `Int` (the `difference_type`,
value.h:1224); `-=` and `-` are the same with the opposite sign after the conversion. -/
def It.add (it : It) (n : Int) : It := { it with index := ((it.index + toInt32 n) % 2 ^ 64).toNat }

/-- `operator-=(int)`, `operator-(int)` (value.h:1215, 1217). -/
def It.sub (it : It) (n : Int) : It := { it with index := ((it.index - toInt32 n) % 2 ^ 64).toNat }

/-- Difference of iterators (value.h:1218): the unsigned difference converted to `Int`. -/
def It.diff (a b : It) : Int := ((a.index : Int) - b.index + 2 ^ 63) % 2 ^ 64 - 2 ^ 63

/-- `begin()`, `end()` (value.cpp:334-335). -/
def beginOf (v : Nat) : It := ⟨v, 0⟩
def endOf (hp : Heap α) (v : Nat) : It := ⟨v, (hp v).length⟩

/-- `for (Value x: v)`: the items seen; `none` – more rounds than `fuel`. -/
def forLoop (hp : Heap α) : Nat → It → It → Option (List (Option α))
  | 0, _, _ => none
  | n + 1, it, e => if it.eq hp e then some [] else (forLoop hp n it.inc e).map (it.deref hp :: ·)

/-- The same from the end to the begin, as `std::reverse_iterator` does it. -/
def backLoop (hp : Heap α) : Nat → It → It → Option (List (Option α))
  | 0, _, _ => none
  | n + 1, it, b => if it.eq hp b then some [] else (backLoop hp n it.dec b).map (it.dec.deref hp :: ·)

/-- A value with its key, as the iteration gives it (`Value(key, value)` shares the value, the key is in a proxy). -/
abbrev Node := Option Bytes × JV

mutual
/-- `Value::walk` (value.h:1275-1283). `fn` is called with the value and says whether to enter it; it may have a state. -/
def walk (fn : σ → Node → Bool × σ) (s : σ) (k : Option Bytes) : JV → σ
  | .arr l => let (enter, s) := fn s (k, .arr l)
    if enter then walkL fn s l else s
  | .obj l => let (enter, s) := fn s (k, .obj l)
    if enter then walkM fn s l else s
  | v => (fn s (k, v)).2
/-- The loop over the items of an array (value.h:1279-1281). -/
def walkL (fn : σ → Node → Bool × σ) (s : σ) : List JV → σ
  | [] => s
  | v :: r => walkL fn (walk fn s none v) r
/-- The loop over the members of an object (value.h:1279-1281). -/
def walkM (fn : σ → Node → Bool × σ) (s : σ) : List (Bytes × JV) → σ
  | [] => s
  | m :: r => walkM fn (walk fn s (some m.1) m.2) r
end

end Imt.Iter
