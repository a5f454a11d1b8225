import Verif.Model.Base
/-!
# Threads reading shared values (`stringValue.cpp`, `stringValue.h`, `basicValues.h`)

The manual promises that values shared by threads need neither locks nor synchronisation (docs/navod.md:29). Functions of
values are `const`; the only members of values they write are the `mutable` ones of `PreciseNumberValue`
(stringValue.h:92-93). All other members are set before the value can be shared and only read later, so they are not
modelled one by one: such a value is a cell that is read. Reference counters are not modelled (`RefCntObj` of the absent
submodule is said to be safe, docs/navod.md:420).
-/
namespace Imt.Share
open Imt

/-- Functions of a number: `getNumber`, `getInt`, `getUInt`, `getIntLong`, `getUIntLong` (they differ in a final
conversion); `getBool`; `getString`. -/
inductive Op where
  | num | bool | text
deriving Repr, DecidableEq

/-- Members of a number: `n` (`v` in `NumberValueT`, basicValues.h:117), `cached`, `charbuff` (stringValue.h:92-94). -/
inductive Fld where
  | n | cached | buf
deriving Repr, DecidableEq

/-- A number: whether it is a `PreciseNumberValue`, and its text. -/
structure Obj where
  precise : Bool
  text : Bytes
deriving Repr, DecidableEq

/-- The two members that may be written. `n = none` – indeterminate (the constructor stringValue.cpp:249-254 does not set
it). -/
structure Cell (ν : Type) where
  n : Option ν
  cached : Bool
deriving Repr, DecidableEq

/-- What a function has returned: the member `n`, or the text. -/
inductive Out (ν : Type) where
  | num (x : Option ν)
  | text (s : Bytes)
deriving Repr, DecidableEq

/-- Where a thread is: between calls; about to test `cached`; about to store `n`; about to store `cached`; about to store
`n` after `cached` (stores in the other order); about to read `n`; about to read `charbuff`. -/
inductive Pc where
  | idle
  | test (o : Nat)
  | fill (o : Nat)
  | flag (o : Nat)
  | late (o : Nat)
  | read (o : Nat) (op : Op)
  | readText (o : Nat)
deriving Repr, DecidableEq

/-- A thread: calls it has yet to make, where it is, what it has got. -/
structure Thread (ν : Type) where
  ops : List (Nat × Op)
  pc : Pc := .idle
  out : List (Nat × Op × Out ν) := []

/-- Values by their address, and threads. -/
structure St (ν : Type) where
  cell : Nat → Cell ν
  thr : Nat → Thread ν

/-- `f` with another value at `i`. -/
def upd {α : Type} (f : Nat → α) (i : Nat) (a : α) : Nat → α := fun j => if j = i then a else f j

/-- One access to memory (or the start of a call) by the thread `i`. `parse` is `NumbParser<T>::parse`
(stringValue.cpp:122-175). With `weak` the two stores of `cacheValue` (stringValue.cpp:177-181) may be made in either
order: they are plain stores to different members, which compilers and processors may exchange.

* `num` of a precise number (stringValue.cpp:184-212): test of `cached`, `cacheValue` when it is false, then `n`.
* `num` of another number (basicValues.h:98-102): the member `v`.
* `bool` of a precise number (stringValue.cpp:214-217): `n` without the test. Of another number: a constant
  (basicValues.h:113), no access.
* `text` of a precise number (stringValue.cpp:224-227): `charbuff`. -/
inductive Step {ν : Type} (parse : Bytes → ν) (obj : Nat → Obj) (weak : Bool) : St ν → St ν → Prop
  | startNum (s : St ν) (i o : Nat) (r : List (Nat × Op)) (h : (s.thr i).ops = (o, .num) :: r) (hp : (s.thr i).pc = .idle) :
      Step parse obj weak s { s with thr := upd s.thr i { s.thr i with ops := r, pc := if (obj o).precise then .test o else .read o .num } }
  | startBool (s : St ν) (i o : Nat) (r : List (Nat × Op)) (h : (s.thr i).ops = (o, .bool) :: r) (hp : (s.thr i).pc = .idle) :
      Step parse obj weak s { s with thr := upd s.thr i { s.thr i with ops := r, pc := if (obj o).precise then .read o .bool else .idle } }
  | startText (s : St ν) (i o : Nat) (r : List (Nat × Op)) (h : (s.thr i).ops = (o, .text) :: r) (hp : (s.thr i).pc = .idle) :
      Step parse obj weak s { s with thr := upd s.thr i { s.thr i with ops := r, pc := .readText o } }
  | test (s : St ν) (i o : Nat) (h : (s.thr i).pc = .test o) :
      Step parse obj weak s { s with thr := upd s.thr i { s.thr i with pc := if (s.cell o).cached then .read o .num else .fill o } }
  | fill (s : St ν) (i o : Nat) (h : (s.thr i).pc = .fill o) :
      Step parse obj weak s ⟨upd s.cell o { s.cell o with n := some (parse (obj o).text) }, upd s.thr i { s.thr i with pc := .flag o }⟩
  | flag (s : St ν) (i o : Nat) (h : (s.thr i).pc = .flag o) :
      Step parse obj weak s ⟨upd s.cell o { s.cell o with cached := true }, upd s.thr i { s.thr i with pc := .read o .num }⟩
  | flagFirst (s : St ν) (i o : Nat) (hw : weak = true) (h : (s.thr i).pc = .fill o) :
      Step parse obj weak s ⟨upd s.cell o { s.cell o with cached := true }, upd s.thr i { s.thr i with pc := .late o }⟩
  | late (s : St ν) (i o : Nat) (h : (s.thr i).pc = .late o) :
      Step parse obj weak s ⟨upd s.cell o { s.cell o with n := some (parse (obj o).text) }, upd s.thr i { s.thr i with pc := .read o .num }⟩
  | read (s : St ν) (i o : Nat) (op : Op) (h : (s.thr i).pc = .read o op) :
      Step parse obj weak s { s with thr := upd s.thr i { s.thr i with pc := .idle, out := (o, op, .num (s.cell o).n) :: (s.thr i).out } }
  | readText (s : St ν) (i o : Nat) (h : (s.thr i).pc = .readText o) :
      Step parse obj weak s { s with thr := upd s.thr i { s.thr i with pc := .idle, out := (o, .text, .text (obj o).text) :: (s.thr i).out } }

/-- States reached by any interleaving. -/
inductive Reach {ν : Type} (parse : Bytes → ν) (obj : Nat → Obj) (weak : Bool) : St ν → St ν → Prop
  | refl (s : St ν) : Reach parse obj weak s s
  | step (a b c : St ν) (h : Reach parse obj weak a b) (hs : Step parse obj weak b c) : Reach parse obj weak a c

/-- The member a thread is about to use; the flag tells a write. -/
def uses : Pc → Option (Nat × Fld × Bool)
  | .idle => none
  | .test o => some (o, .cached, false)
  | .fill o => some (o, .n, true)
  | .flag o => some (o, .cached, true)
  | .late o => some (o, .n, true)
  | .read o _ => some (o, .n, false)
  | .readText o => some (o, .buf, false)

/-- A data race: two threads are about to use the same member of a value, one of them to write. No function of values
synchronises threads. -/
def Race {ν : Type} (s : St ν) : Prop :=
  ∃ i j o f w, i ≠ j ∧ uses (s.thr i).pc = some (o, f, true) ∧ uses (s.thr j).pc = some (o, f, w)

/-- Values as constructors leave them, to be shared: a precise number made with its value
(stringValue.cpp:256-260) has it cached, one made from a text only (stringValue.cpp:249-254) has not; other numbers have
their value. No thread has started. -/
def Start {ν : Type} (parse : Bytes → ν) (obj : Nat → Obj) (val : Nat → ν) (s : St ν) : Prop :=
  (∀ o, (obj o).precise = true →
    s.cell o = ⟨none, false⟩ ∨ s.cell o = ⟨some (parse (obj o).text), true⟩) ∧
  (∀ o, (obj o).precise = false → (s.cell o).n = some (val o)) ∧
  (∀ i, (s.thr i).pc = .idle ∧ (s.thr i).out = [])

end Imt.Share
