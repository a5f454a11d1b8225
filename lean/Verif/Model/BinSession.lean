import Verif.Model.BinJson
/-!
# Several values through one `BinarySerializer` and one `BinaryParser` (`binjson.h`, `binjson.tcc`)

Both objects keep their dictionary of keys between the values (binjson.h:61-62, 107-108). Keys can be put into it
beforehand and it can be emptied.
-/
namespace Imt.BinJson
open Imt

/-- `BinarySerializer::preloadKey` (binjson.tcc:494-497): was the key stored, and the new dictionary. -/
def preloadS (ss : SS) (k : Bytes) : Bool × SS :=
  let r := tryCompressKey ss k
  (r.1.isNone, r.2)

/-- `BinaryParser::preloadKey` (binjson.tcc:489-492). -/
def preloadP (ps : PS) (k : Bytes) : Res PS := storeKey ps k

/-- `BinarySerializer::clearKeys` (binjson.tcc:505-509). -/
def clearS (_ : SS) : SS := ⟨fun _ => 0, 256⟩

/-- `BinaryParser::clearKeys` (binjson.tcc:499-503). -/
def clearP (ps : PS) : PS := { ps with hist := [], ki := 0 }

/-- What is done with a serializer. -/
inductive SStep where
  | preload (k : Bytes)
  | clear
  | send (v : BV)

/-- What is done with a parser. -/
inductive PStep where
  | preload (k : Bytes)
  | clear
  | recv
deriving Repr, DecidableEq

/-- Calls of one serializer, one after another: the bytes written, the answers of `preloadKey` and the dictionary. -/
def runS (fl : Flags) (env : Env) (ss : SS) : List SStep → Res (Bytes × List Bool × SS)
  | [] => .ok ([], [], ss)
  | .preload k :: l => do
    let r ← runS fl env (preloadS ss k).2 l
    pure (r.1, (preloadS ss k).1 :: r.2.1, r.2.2)
  | .clear :: l => runS fl env (clearS ss) l
  | .send v :: l => do
    let a ← ser fl env ss v
    let r ← runS fl env a.2 l
    pure (a.1 ++ r.1, r.2.1, r.2.2)

/-- Calls of one parser, one after another: the values read and the state left. -/
def runP (env : Env) (fuel : Nat) (ps : PS) : List PStep → Res (List BV × PS)
  | [] => .ok ([], ps)
  | .preload k :: l => do
    let ps ← preloadP ps k
    runP env fuel ps l
  | .clear :: l => runP env fuel (clearP ps) l
  | .recv :: l => do
    let v ← parseItem env fuel ps
    let r ← runP env fuel v.2 l
    pure (v.1 :: r.1, r.2)

/-! ## Whose memory the dictionary refers to -/

mutual
/-- The keys `serialize` looks up, in order (binjson.tcc:76-80, 104-111). -/
def keysOf : BV → List Bytes
  | .node key _ kids => (if key = [] then [] else [key]) ++ keysOfL kids
/-- The keys of the items. -/
def keysOfL : List BV → List Bytes
  | [] => []
  | v :: l => keysOf v ++ keysOfL l
end

/-- `keyMap` (binjson.h:106-108) holds views: each key refers to memory of the value (or preloaded text) in which it
was met first; `own` lists them with their owner. `dead` are the owners that have been released. -/
structure Mem where
  own : List (Bytes × Nat)
  dead : List Nat
deriving Repr, DecidableEq

/-- `keyMap[key]` (binjson.tcc:451). The table compares the key with the stored ones of the same hash, reading them; a
stored one of a released owner makes that undefined. `h` is the hash (binjson.tcc:464-474); stored keys of a different
hash in the same bucket are not compared (their hash is kept with them). A key stored before keeps referring to where it
was. -/
def look (h : Bytes → Nat) (m : Mem) (o : Nat) (k : Bytes) : Res Mem :=
  if m.own.any (fun e => h e.1 == h k && m.dead.contains e.2) then .ub
  else if m.own.any (fun e => e.1 == k) then .ok m
  else .ok { m with own := (k, o) :: m.own }

/-- Several keys. -/
def looks (h : Bytes → Nat) (m : Mem) (o : Nat) : List Bytes → Res Mem
  | [] => .ok m
  | k :: l => do
    let m ← look h m o k
    looks h m o l

/-- What is done with a serializer and the values given to it. -/
inductive LStep where
  | preload (k : Bytes) (o : Nat)
  | clear
  | send (v : BV) (o : Nat)
  | release (o : Nat)

/-- Effect on the memory the dictionary refers to. -/
def memStep (fl : Flags) (h : Bytes → Nat) (m : Mem) : LStep → Res Mem
  | .preload k o => look h m o k
  | .clear => .ok { m with own := [] }
  | .send v o => if fl.compressKeys then looks h m o (keysOf v) else .ok m
  | .release o => .ok { m with dead := o :: m.dead }

/-- A whole use of a serializer. -/
def memRun (fl : Flags) (h : Bytes → Nat) (m : Mem) : List LStep → Res Mem
  | [] => .ok m
  | s :: l => do
    let m ← memStep fl h m s
    memRun fl h m l

end Imt.BinJson
