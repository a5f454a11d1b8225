import Verif.Model.Rpc
/-!
# Prepared calls and the functions given to them (`rpc.h`, `rpc.cpp`)

`Model/Rpc` numbers calls by their sending; here are the objects `PreparedCall`, which may be used more times, and the functions
called with results. Identifiers do not wrap here (see `C60_violation_wrap`).
-/
namespace Imt.RpcPrep
open Imt Imt.Rpc

/-- `PreparedCall` (rpc.h:901-925): its identifier and `executed`. -/
structure Prep where
  id : Nat
  executed : Bool
deriving Repr, DecidableEq

/-- The client with the prepared calls made so far. Functions given to them are numbered; `pend` is the map of pending calls: the
identifier and the function; `calls` – the functions called and with what (`none` is the empty result); `sent` – identifiers of requests
given to `sendRequest`; `given` – each function with the identifier of its call. -/
structure St where
  counter : Nat := 0
  prep : List Prep := []
  next : Nat := 0
  pend : List (Nat × Nat) := []
  sent : List Nat := []
  given : List (Nat × Nat) := []
  calls : List (Nat × Option Result) := []
deriving Repr, DecidableEq

/-- What is done with a client. `async p thrown` – `>>` of the prepared call `p` with a new function, `sendRequest` throws or not; `sync p` – the
conversion to `RpcResult`: its return is counted as a function; `copy p` – the copy of a prepared call (the class has the implicit copy
constructor). -/
inductive Op where
  | prepare
  | copy (p : Nat)
  | async (p : Nat) (thrown : Bool)
  | sync (p : Nat)
  | response (id : Nat) (r : Result)
  | cancel (id : Nat) (r : Result)
deriving Repr

/-- `addPendingCall` (rpc.cpp:703-705) with the function `next`: `emplace` refuses an identifier already present; the refused call
object is destroyed, which calls its function with the empty result (rpc.h:1098-1104). -/
def register (s : St) (id : Nat) : St :=
  let s := { s with given := s.given ++ [(s.next, id)] }
  match findId s.pend id with
  | some _ => { s with next := s.next + 1, calls := s.calls ++ [(s.next, none)] }
  | none => { s with next := s.next + 1, pend := (id, s.next) :: s.pend }

/-- `cancelPendingCall` (rpc.cpp:582-591), the same for a response (rpc.cpp:656-683): the result is stored, then the call object is
destroyed, which calls the function (rpc.h:1095-1104). What the function throws is dropped. -/
def finish (s : St) (id : Nat) (r : Result) : St :=
  match findId s.pend id with
  | none => s
  | some f => { s with pend := s.pend.filter (fun e => e.1 != id), calls := s.calls ++ [(f, some r)] }

/-- One operation. `operator>>` (rpc.h:1088-1116) sets `executed` after the request was sent, `operator RpcResult` (rpc.cpp:528-550)
before; a call already executed does nothing. A prepared call which does not exist changes nothing. -/
def step (s : St) : Op → St
  | .prepare => { s with counter := s.counter + 1, prep := s.prep ++ [⟨s.counter + 1, false⟩] }
  | .copy p => match s.prep[p]? with
    | some c => { s with prep := s.prep ++ [c] }
    | none => s
  | .async p thrown => match s.prep[p]? with
    | some ⟨id, false⟩ =>
      let s := register s id
      { s with sent := s.sent ++ [id], prep := if thrown then s.prep else s.prep.set p ⟨id, true⟩ }
    | _ => s
  | .sync p => match s.prep[p]? with
    | some ⟨id, false⟩ =>
      let s := register s id
      { s with sent := s.sent ++ [id], prep := s.prep.set p ⟨id, true⟩ }
    | _ => s
  | .response id r => finish s id r
  | .cancel id r => finish s id r

/-- A sequence of operations. -/
def run (s : St) (ops : List Op) : St := ops.foldl step s

/-- The destructor of the client (rpc.h:990) when no synchronous call waits: members are destroyed in the reverse order of their
declaration, the lock (rpc.h:1035) before the map (rpc.h:1033), whose elements call their functions with the empty result. A function which
uses the client locks a lock that is gone; `uses` says which do. -/
def destroy (uses : Nat → Bool) (s : St) : Res (List (Nat × Option Result)) :=
  if s.pend.any (fun e => uses e.2) then .ub else .ok (s.calls ++ s.pend.map (fun e => (e.2, none)))

end Imt.RpcPrep
