import Verif.Model.ValueOps
/-!
# `String` (`string.cpp`)
-/
namespace Imt.Str
open Imt Imt.VOps

/-- `StringView::indexOf(sub, pos)` (absent submodule `shared`): the first position from `pos` on where `sub` occurs. -/
def indexOf (s sep : Bytes) (start : Nat) : Option Nat :=
  (List.range (s.length + 1)).find? (fun i => decide (start ≤ i) && sep.isPrefixOf (s.drop i))

/-- The last part of `split` (string.cpp:192-196). -/
def splitLast (s : Bytes) (curPos : Nat) : Bytes :=
  if curPos = 0 then s else substr s curPos (sub64 s.length curPos)

/-- Loop of `split` (string.cpp:186-191) and the last part; the first number is `maxCount`. -/
def splitLoop (s sep : Bytes) : Nat → Nat → List Bytes
  | 0, curPos => [splitLast s curPos]
  | n + 1, curPos => match indexOf s sep curPos with
    | none => [splitLast s curPos]
    | some nextPos => substr s curPos (nextPos - curPos) :: splitLoop s sep n (nextPos + sep.length)

/-- `String::split` (string.cpp:181-200): contents of the parts. A part is a view into the parent (`SubStrString`,
string.cpp:164-178). For a non-empty separator. -/
def split (s sep : Bytes) (maxCount : Nat) : List Bytes := splitLoop s sep maxCount 0

/-- Reading `n` bytes at `p` of a block. -/
def readAt (a : Bytes) (p n : Nat) : Res Bytes := if p + n ≤ a.length then .ok ((a.drop p).take n) else .ub

/-- Copying bytes into a block at `p`. -/
def writeAt (buf : Bytes) (p : Nat) (src : Bytes) : Res Bytes :=
  if p + src.length ≤ buf.length then .ok (buf.take p ++ src ++ buf.drop (p + src.length)) else .ub

/-- `size_t` addition. -/
@[irreducible] def add64 (a b : Nat) : Nat := (a + b) % 2 ^ 64

/-- `String::insert` (string.cpp:127-146). The buffer of the new string has `sz` characters. -/
def insert (s : Bytes) (pos : Nat) (what : Bytes) : Res Bytes :=
  if what = [] then .ok s
  else do
    let pos := if pos > s.length then s.length else pos
    let sz := s.length + what.length
    let a ← readAt s 0 pos
    let buf ← writeAt (List.replicate sz 0) 0 a
    let buf ← writeAt buf pos what
    let a ← readAt s pos (s.length - pos)
    writeAt buf (pos + what.length) a

/-- `String::replace` (string.cpp:148-162). The sums are of the type `size_t`. -/
def replace (s : Bytes) (pos size : Nat) (what : Bytes) : Res Bytes := do
  let pos := if pos > s.length then s.length else pos
  let size := if add64 pos size > s.length then s.length - pos else size
  let needsz := sub64 (s.length + what.length) size
  let a ← readAt s 0 pos
  let buf ← writeAt (List.replicate needsz 0) 0 a
  let buf ← writeAt buf pos what
  let a ← readAt s (add64 pos size) (sub64 (s.length - pos) size)
  writeAt buf (pos + what.length) a

/-- `String({a, b, …})` (string.cpp:69-82). -/
def concatLoop (buf : Bytes) (p : Nat) : List Bytes → Res Bytes
  | [] => .ok buf
  | x :: r => do
    let buf ← writeAt buf p x
    concatLoop buf (p + x.length) r

/-- See `concatLoop`. -/
def concat (l : List Bytes) : Res Bytes := concatLoop (List.replicate (l.map List.length).sum 0) 0 l

/-- `left` (string.cpp:45-47). -/
def left (s : Bytes) (n : Nat) : Bytes := substr s 0 n
/-- `right` (string.cpp:49-53). -/
def right (s : Bytes) (n : Nat) : Bytes :=
  let n := if n > s.length then s.length else n
  substr s (s.length - n) n
/-- `operator[]` (string.cpp:63-67). -/
def charAt (s : Bytes) (pos : Nat) : Nat := if pos ≥ s.length then 0 else s.getD pos 0

end Imt.Str
