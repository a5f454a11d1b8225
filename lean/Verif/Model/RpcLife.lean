import Verif.Model.Base
/-!
# Life of a request (`rpc.cpp`, `rpc.h`)

`RpcRequest` is a counted pointer to `RequestData` (rpc.h:621). `RefCntObj` and `RefCntPtr` are in the absent submodule; their
use here (`addRef`, `release`) shows the usual contract: a pointer counts, and the one that takes the counter to zero
deletes the object; `release` called directly only counts.
-/
namespace Imt.RpcLife
open Imt

/-- The request: the counter; how many pointers user code holds; whether its memory is still there; `srvsvc != nullptr`
(rpc.h:278) and whether that server still exists; `responseSent`; whether an answer can be sent at all (`id` neither
undefined nor null, rpc.cpp:133, or made with `Callbacks`). `dtors` counts runs of the destructor, `answers` calls of the
callback with a result or an error, `cbsFreed` calls of `Callbacks::release` (rpc.cpp:868). -/
structure St where
  rc : Nat := 1
  held : Nat := 1
  freed : Bool := false
  srv : Bool := false
  srvLive : Bool := true
  sent : Bool := false
  can : Bool := true
  dtors : Nat := 0
  answers : Nat := 0
  cbsFreed : Nat := 0
deriving Repr, DecidableEq

/-- What the program does. `keep` is the number of copies of the pointer it was given that the called callback keeps.
`exec` – the request is executed by a server, which stores a pointer to itself in it (rpc.cpp:286, `init` rpc.cpp:732-734). -/
inductive Ev where
  | copy
  | drop (keep : Nat)
  | answer (keep : Nat)
  | exec
  | serverGone
deriving Repr, DecidableEq

/-- The callback is called with a temporary pointer (`RpcRequest(this)`, rpc.cpp:846-851; `RefCntPtr<RequestData>(this)`,
rpc.h:635), keeps some copies, and the temporary pointer goes. Should it be the one that takes the counter to zero it deletes
a request that its caller is still working with, or is destroying already: undefined. -/
def callback (s : St) (keep : Nat) : Res St :=
  let s := { s with rc := s.rc + 1 }
  let s := { s with rc := s.rc + keep, held := s.held + keep, answers := s.answers + 1 }
  let s := { s with rc := s.rc - 1, sent := true }
  if s.rc = 0 then .ub else .ok s

/-- `setNoResultError` (rpc.cpp:714-726) with `sendError` (rpc.cpp:132-151, 849-851). -/
def noResult (s : St) (keep : Nat) : Res St :=
  let s := { s with rc := s.rc + 1 }
  if s.srv then
    if s.srvLive then do
      let s ← (if s.can && !s.sent then callback s keep else .ok s)
      .ok { s with rc := s.rc - 1 }
    else .ub
  else .ok { s with rc := s.rc - 1 }

/-- The destructor (rpc.h:637-641, rpc.cpp:864-869) and the release of the memory. -/
def destroy (s : St) (keep : Nat) : Res St := do
  let s ← (if !s.sent then noResult s keep else .ok s)
  .ok { s with dtors := s.dtors + 1, cbsFreed := s.cbsFreed + 1, freed := true }

/-- One event; `err` – the program has no pointer to do it with. Any use of a pointer to a request that is gone is
undefined. `answer` – `setResult` or `setError` (rpc.cpp:112-151); with `Callbacks` a further answer is passed on too, which
is another property's business and left out: answers after the first are ignored here. -/
def step (s : St) : Ev → Res St
  | .copy => if s.held = 0 then .err else if s.freed then .ub else .ok { s with rc := s.rc + 1, held := s.held + 1 }
  | .answer keep =>
    if s.held = 0 then .err else if s.freed then .ub
    else if s.can && !s.sent then callback s keep else .ok s
  | .exec => if s.held = 0 then .err else if s.freed then .ub else .ok { s with srv := true }
  | .drop keep =>
    if s.held = 0 then .err else if s.freed then .ub
    else
      let s := { s with rc := s.rc - 1, held := s.held - 1 }
      if s.rc = 0 then destroy s keep else .ok s
  | .serverGone => .ok { s with srvLive := false }

/-- Events in order. -/
def run (s : St) : List Ev → Res St
  | [] => .ok s
  | e :: r => do
    let s ← step s e
    run s r

end Imt.RpcLife
