import Verif.Model.Base
/-!
# Threads using one RPC client (`rpc.cpp`, `rpc.h`)

Two models: which shared members of `AbstractRpcClient` are used under its lock, and the protocol of a synchronous call.
Memory is sequentially consistent: a program without data races behaves this way, and absence of races is what the first
model is about.
-/
namespace Imt.RpcSync
open Imt

/-! ### Use of the shared members -/

/-- Members shared by the threads (rpc.h:995, rpc.h:1033, rpc.h:1040). `ver` is set by the constructor only. -/
inductive Var where
  | callMap | context | counter
deriving Repr, DecidableEq

/-- What a thread does with the lock (a recursive mutex, rpc.h:1035) and with the shared members. -/
inductive Act where
  | lock | unlock
  | rd (x : Var)
  | wr (x : Var)
deriving Repr, DecidableEq

/-- Who holds the lock and how many times; what each thread has yet to do. -/
structure St where
  owner : Option (Nat × Nat)
  rest : Nat → List Act

/-- `f` with another value at `i`. -/
def set {α : Type} (f : Nat → α) (i : Nat) (a : α) : Nat → α := fun j => if j = i then a else f j

/-- One action of the thread `i`. A thread that wants a lock held by another one waits. -/
inductive Step : St → St → Prop
  | lock0 (s : St) (i : Nat) (r : List Act) (h : s.rest i = .lock :: r) (ho : s.owner = none) :
      Step s ⟨some (i, 1), set s.rest i r⟩
  | lockN (s : St) (i d : Nat) (r : List Act) (h : s.rest i = .lock :: r) (ho : s.owner = some (i, d)) :
      Step s ⟨some (i, d + 1), set s.rest i r⟩
  | unlock1 (s : St) (i : Nat) (r : List Act) (h : s.rest i = .unlock :: r) (ho : s.owner = some (i, 1)) :
      Step s ⟨none, set s.rest i r⟩
  | unlockN (s : St) (i d : Nat) (r : List Act) (h : s.rest i = .unlock :: r) (ho : s.owner = some (i, d + 2)) :
      Step s ⟨some (i, d + 1), set s.rest i r⟩
  | rd (s : St) (i : Nat) (x : Var) (r : List Act) (h : s.rest i = .rd x :: r) : Step s ⟨s.owner, set s.rest i r⟩
  | wr (s : St) (i : Nat) (x : Var) (r : List Act) (h : s.rest i = .wr x :: r) : Step s ⟨s.owner, set s.rest i r⟩

/-- States reached by any interleaving. -/
inductive Reach : St → St → Prop
  | refl (s : St) : Reach s s
  | step (a b c : St) (h : Reach a b) (hs : Step b c) : Reach a c

/-- `genRequestID` (rpc.cpp:819-823). -/
def genId : List Act := [.rd .counter, .wr .counter]

/-- `operator()(method, args, context)` (rpc.cpp:559-576). -/
def prepare3 : List Act := [.lock] ++ genId ++ [.unlock]

/-- `operator()(method, args)` (rpc.cpp:552-557). -/
def prepare2 : List Act := [.lock] ++ genId ++ [.rd .context] ++ prepare3 ++ [.unlock]

/-- `setContext` (rpc.cpp:686-689). -/
def setContext : List Act := [.lock, .wr .context, .unlock]

/-- `updateContext` (rpc.cpp:690-693). -/
def updateContext : List Act := [.lock, .rd .context] ++ setContext ++ [.unlock]

/-- `cancelPendingCall` up to the call of `onResponse` (rpc.cpp:582-588). -/
def cancelFound : List Act := [.lock, .rd .callMap, .wr .callMap, .unlock]

/-- `cancelPendingCall` of an identifier that is not there (rpc.cpp:582-585). -/
def cancelMissing : List Act := [.lock, .rd .callMap, .unlock]

/-- `parseResponse` of a response to a pending call (rpc.cpp:620-641): the map is used without the lock. -/
def parseResponse : List Act := updateContext ++ [.rd .callMap, .wr .callMap]

/-- Traces of a thread which uses the client by its public functions and `filterPendingCalls`, but not by
`parseResponse`. `sendRequest` is code of the user called under the lock, and may use the client (rpc.h:1003-1006);
likewise the functions called with results, which run without the lock when called by `cancelPendingCall`, and under it
when a call is refused (rpc.cpp:703-705) or dropped by `filterPendingCalls` (rpc.cpp:605). A wait on a condition releases
the lock once and takes it again (rpc.cpp:545). -/
inductive Run : List Act → Prop
  | nil : Run []
  | app (a b : List Act) (ha : Run a) (hb : Run b) : Run (a ++ b)
  | prepare3 : Run prepare3
  | prepare2 : Run prepare2
  | setContext : Run setContext
  | getContext : Run [.lock, .rd .context, .unlock]
  | updateContext : Run updateContext
  | cancelMissing : Run cancelMissing
  | cancelFound (cb : List Act) (h : Run cb) : Run (cancelFound ++ cb)
  | release : Run [.lock, .unlock]
  | collect : Run [.lock, .rd .callMap, .unlock]
  | filter (cb : List Act) (h : Run cb) : Run ([.lock] ++ cb ++ [.rd .callMap, .wr .callMap, .unlock])
  | notify (send : List Act) (h : Run send) : Run ([.lock] ++ send ++ [.unlock])
  | async (refused send : List Act) (hr : Run refused) (h : Run send) :
      Run ([.lock, .wr .callMap] ++ refused ++ send ++ [.unlock])
  | sync (refused send : List Act) (waits : Nat) (hr : Run refused) (h : Run send) :
      Run ([.lock, .wr .callMap] ++ refused ++ send ++ (List.replicate waits [Act.unlock, Act.lock]).flatten ++ [.unlock])

/-- The next action of a thread uses `x`; the flag tells a write. -/
def Uses (s : St) (i : Nat) (x : Var) (w : Bool) : Prop :=
  ∃ r, s.rest i = (if w then .wr x else .rd x) :: r

/-- A data race: two threads are about to use the same member, one of them to write. -/
def Race (s : St) : Prop := ∃ i j x w, i ≠ j ∧ Uses s i x true ∧ Uses s j x w

/-- A thread is about to release a lock it does not hold (undefined for a mutex). -/
def BadUnlock (s : St) : Prop := ∃ i r, s.rest i = .unlock :: r ∧ ∀ d, s.owner ≠ some (i, d)

/-! ### A synchronous call -/

/-- Where the caller is in `PreparedCall::operator RpcResult` (rpc.cpp:528-550): before the lock; registered and about to
send (lock held); about to test the condition (lock held); in the wait, notified or not; about to read the result (lock
held); returned. -/
inductive Caller where
  | start | sending | testing
  | waiting (notified : Bool)
  | reading
  | returned (r : Option Nat)
deriving Repr, DecidableEq

/-- Where a thread that completes the call is: in `cancelPendingCall` (rpc.cpp:582-591), then in the deleter of the pending
call, `release` (rpc.cpp:512-518). Before the lock; about to search (lock held); about to write the result (no lock);
about to lock again; about to set the flag (lock held); done. -/
inductive Resp where
  | start | search | write | relock | flag | finished
deriving Repr, DecidableEq

/-- Threads holding the lock: the caller or a completing thread. -/
inductive Who where
  | caller
  | resp (i : Nat)
deriving Repr, DecidableEq

/-- The lock, the entry in `callMap`, the members `received` and `res` of `LocalPendingCall` (rpc.cpp:520-521) and
whether that object, which is on the stack of the caller, exists. `took` records who took the entry. -/
structure Sys where
  lock : Option Who := none
  entry : Bool := false
  received : Bool := false
  res : Option Nat := none
  alive : Bool := false
  took : List Nat := []
  caller : Caller := .start
  resp : Nat → Resp := fun _ => .start

/-- One step; `val i` is the result the completing thread `i` has. Everything done while the lock is held and without a
use of `res` is one step where that makes no difference. `inline`: `sendRequest` itself completes the call, on the thread
of the caller, which holds the lock (a recursive mutex). A notification wakes the caller if it waits (rpc.cpp:517); a
wait may also end without one. -/
inductive CStep (val : Nat → Nat) : Sys → Sys → Prop
  | register (s : Sys) (h : s.caller = .start) (hl : s.lock = none) :
      CStep val s { s with lock := some .caller, alive := true, entry := true, caller := .sending }
  | send (s : Sys) (h : s.caller = .sending) : CStep val s { s with caller := .testing }
  | inline (s : Sys) (i : Nat) (h : s.caller = .sending) (hi : s.resp i = .start) (he : s.entry = true) :
      CStep val s { s with entry := false, took := i :: s.took, res := some (val i), received := true,
                           resp := set s.resp i .finished }
  | ready (s : Sys) (h : s.caller = .testing) (hr : s.received = true) : CStep val s { s with caller := .reading }
  | sleep (s : Sys) (h : s.caller = .testing) (hr : s.received = false) :
      CStep val s { s with lock := none, caller := .waiting false }
  | wake (s : Sys) (n : Bool) (h : s.caller = .waiting n) (hl : s.lock = none) :
      CStep val s { s with lock := some .caller, caller := .testing }
  | read (s : Sys) (h : s.caller = .reading) :
      CStep val s { s with lock := none, alive := false, caller := .returned s.res }
  | enter (s : Sys) (i : Nat) (h : s.resp i = .start) (hl : s.lock = none) :
      CStep val s { s with lock := some (.resp i), resp := set s.resp i .search }
  | take (s : Sys) (i : Nat) (h : s.resp i = .search) (he : s.entry = true) :
      CStep val s { s with lock := none, entry := false, took := i :: s.took, resp := set s.resp i .write }
  | miss (s : Sys) (i : Nat) (h : s.resp i = .search) (he : s.entry = false) :
      CStep val s { s with lock := none, resp := set s.resp i .finished }
  | write (s : Sys) (i : Nat) (h : s.resp i = .write) :
      CStep val s { s with res := some (val i), resp := set s.resp i .relock }
  | relock (s : Sys) (i : Nat) (h : s.resp i = .relock) (hl : s.lock = none) :
      CStep val s { s with lock := some (.resp i), resp := set s.resp i .flag }
  | flag (s : Sys) (i : Nat) (h : s.resp i = .flag) :
      CStep val s { s with lock := none, received := true,
                           caller := (match s.caller with | .waiting _ => .waiting true | c => c),
                           resp := set s.resp i .finished }

/-- States reached by any interleaving of the caller and of any number of completing threads. -/
inductive CReach (val : Nat → Nat) : Sys → Sys → Prop
  | refl (s : Sys) : CReach val s s
  | step (a b c : Sys) (h : CReach val a b) (hs : CStep val b c) : CReach val a c

/-- The thread `i` is about to use the object of the caller: to write `res` (rpc.cpp:506) or, in `release`, to reach the
lock through it and to set `received` (rpc.cpp:513-517). -/
def Touches (s : Sys) (i : Nat) : Prop := s.resp i = .write ∨ s.resp i = .relock ∨ s.resp i = .flag

end Imt.RpcSync
