import Verif.Model.ObjB
import Verif.Model.ObjCore
/-!
# JSON-RPC requests, server and client core (`rpc.cpp`, `rpc.h`)

Locks are not modelled: each operation of the client runs as a whole; callbacks run outside of the lock and appear as further operations.
Reference counting of the request (absent submodule) is assumed to run the destructor once, when the last `RpcRequest` is gone.
-/
namespace Imt.Rpc
open Imt Imt.Obj Imt.ObjB

/-! ### Messages -/

/-- `Object(k, v)(k, v)...` converted to a value (object.h: operator(), commit): undefined members are left out. -/
def build (l : Members JV) : JV := .obj (ObjB.commit defd (ObjB.record defd ObjB.new l)).1

/-- Messages handed to the callback of a request. -/
inductive Msg where
  | result (m : JV)
  | error (m : JV)
  | notify (name data : JV)
  | beat
deriving Repr, DecidableEq

/-- Members of the response of `sendResult` (rpc.cpp:112-131). -/
def resultMsg (v2 : Bool) (id result ctx : JV) : JV :=
  if v2 then build [(ascii "id", id), (ascii "result", result), (ascii "jsonrpc", .str (ascii "2.0")), (ascii "context", ctx)]
  else build [(ascii "id", id), (ascii "result", result), (ascii "error", .null), (ascii "context", ctx)]

/-- Members of the response of `sendError` (rpc.cpp:132-151). -/
def errorMsg (v2 : Bool) (id error : JV) : JV :=
  if v2 then build [(ascii "id", id), (ascii "error", error), (ascii "jsonrpc", .str (ascii "2.0"))]
  else build [(ascii "id", id), (ascii "error", error), (ascii "result", .null)]

/-! ### Request -/

/-- `RpcRequest::RequestData` (rpc.h:271-300). `cbs` – created with `Callbacks` (rpc.cpp:839-877) instead of a function (rpc.h:627-647);
`id` as received; `srv` – `srvsvc != nullptr`; `out` – messages handed out, oldest first. -/
structure Req where
  cbs : Bool
  id : JV
  v2 : Bool
  post : Bool
  srv : Bool := false
  sent : Bool := false
  err : Bool := false
  notif : Bool := false
  out : List Msg := []

/-- `id.defined() && !id.isNull()`. -/
def answerable : JV → Bool
  | .undef => false
  | .null => false
  | _ => true

/-- What can be done with a request: `setResult` (with the context change), `setError` (also all functions that format an error and call
it), `setNoResultError`, `sendNotify`, `hearthbeat`. -/
inductive Op where
  | setResult (v ctx : JV)
  | setError (e : JV)
  | noResult (e : JV)
  | notify (name data : JV)
  | beat

/-- Behaviour of a callback: operations it does on the same request, then the returned flag, or an exception (`none`). -/
structure Act where
  ops : List Op
  ret : Option Bool

/-- `context.empty() ? Value() : context` (rpc.cpp:114). -/
def ctxch (ctx : JV) : JV :=
  match ctx with
  | .arr (_ :: _) => ctx
  | .obj (_ :: _) => ctx
  | _ => .undef

/-- `postSendResponse` (rpc.cpp:152-155). -/
def postSend (r : Req) (b : Bool) : Req := { r with sent := true, notif := r.post && b }

/-- Effect of the code before and after calling the callback for one operation: `none` – nothing is called; otherwise the request
at the call, the message and what follows a normal return of the callback.
`sendResult` (rpc.cpp:112-131), `sendError` (132-151), `sendNotify` (157-163), `hearthbeat` (750-756), `setNoResultError` (714-730);
with `Callbacks`: rpc.cpp:846-862; there the result and context are passed without the message around them, which is left out here. -/
def prep (r : Req) : Op → Option (Req × Msg × (Req → Bool → Req))
  | .setResult v ctx =>
    if r.cbs then some (r, .result (resultMsg r.v2 r.id v ctx), postSend)
    else if answerable r.id && !r.sent then some (r, .result (resultMsg r.v2 r.id v (ctxch ctx)), postSend)
    else none
  | .setError e =>
    if r.cbs then some (r, .error (errorMsg r.v2 r.id e), postSend)
    else if answerable r.id && !r.sent then
      some ({ r with sent := true, err := true }, .error (errorMsg r.v2 r.id e), postSend)
    else none
  | .noResult e =>
    if r.srv then
      if r.cbs then some (r, .error (errorMsg r.v2 r.id e), postSend)
      else if answerable r.id && !r.sent then
        some ({ r with sent := true, err := true }, .error (errorMsg r.v2 r.id e), postSend)
      else none
    else none
  | .notify n d =>
    if r.cbs then some (r, .notify n d, fun r _ => r)
    else if r.notif then some (r, .notify n d, fun r b => { r with notif := b }) else none
  | .beat => some (r, .beat, fun r _ => r)

/-- Exceptions of `setNoResultError` are caught (rpc.cpp:717-722). -/
def catches : Op → Bool
  | .noResult _ => true
  | _ => false

/-- Operations declared `noexcept`: with `Callbacks` all of them (rpc.h:311-412), otherwise `hearthbeat` (rpc.cpp:754). -/
def nothrow (r : Req) : Op → Bool
  | .beat => true
  | _ => r.cbs

/-- Perform operations; the callback is a function of all messages so far. Result: the request and whether an exception left the
operations. An exception in a `noexcept` operation terminates the program, reported as `none` like exceeding the recursion depth. -/
def perform (cb : List Msg → Act) : Nat → Req → List Op → Option (Req × Bool)
  | _, r, [] => some (r, false)
  | 0, _, _ :: _ => none
  | fuel + 1, r, op :: ops =>
    match prep r op with
    | none => perform cb fuel r ops
    | some (r, m, fin) =>
      let r := { r with out := r.out ++ [m] }
      let act := cb r.out
      match perform cb fuel r act.ops with
      | none => none
      | some (r, threw) =>
        if threw || act.ret.isNone then
          if nothrow r op then none
          else if catches op then perform cb fuel r ops
          else some (r, true)
        else perform cb fuel (fin r (act.ret.getD false)) ops

/-- Destructor of the request (rpc.h:637-641, rpc.cpp:864-869). -/
def destroy (cb : List Msg → Act) (fuel : Nat) (err : JV) (r : Req) : Option Req :=
  if r.sent then some r else (perform cb fuel r [.noResult err]).map (·.1)

/-! ### Server -/

/-- A method, proxy or exception handler: operations, then it returns a flag (proxy and handler: whether it took the request) or throws. -/
structure Fn where
  ops : List Op
  ret : Option Bool

/-- Error objects used by the server (contents do not matter here). -/
structure Errs where
  notFound : JV
  invalid : JV
  internal : JV

/-- Body of the try block of `RpcServer::exec` (rpc.cpp:285-302); `valid` – the test of name, arguments and context; `m` – the
registered method. The flag tells whether an exception was thrown. -/
def execTry (cb : List Msg → Act) (fuel : Nat) (e : Errs) (valid : Bool) (m proxy : Option Fn) (r : Req) : Option (Req × Bool) :=
  let r := { r with srv := true }
  if valid then
    match m with
    | some f => (perform cb fuel r f.ops).map (fun x => (x.1, x.2 || f.ret.isNone))
    | none =>
      match proxy with
      | none => perform cb fuel r [.setError e.notFound]
      | some p =>
        match perform cb fuel r p.ops with
        | none => none
        | some (r, threw) =>
          if threw || p.ret.isNone then some (r, true)
          else if p.ret = some true then some (r, false)
          else perform cb fuel r [.setError e.notFound]
  else perform cb fuel r [.setError e.invalid]

/-- `catch` parts of `RpcServer::exec` (rpc.cpp:303-317). The function is `noexcept`: a further exception terminates (`none`). -/
def execCatch (cb : List Msg → Act) (fuel : Nat) (e : Errs) (handler : Option Fn) (r : Req) : Option Req :=
  let again (r : Req) : Option Req :=
    match perform cb fuel r [.setError e.internal] with
    | some (r, false) => some r
    | _ => none
  let first (r : Req) : Option Req :=
    match perform cb fuel r [.setError e.internal] with
    | some (r, false) => some r
    | some (r, true) => again r
    | none => none
  match handler with
  | none => first r
  | some h =>
    match perform cb fuel r h.ops with
    | none => none
    | some (r, threw) =>
      if threw || h.ret.isNone then again r
      else if h.ret = some true then some r
      else first r

/-- `RpcServer::exec` (rpc.cpp:284-318). -/
def exec (cb : List Msg → Act) (fuel : Nat) (e : Errs) (valid : Bool) (m proxy handler : Option Fn) (r : Req) : Option Req :=
  match execTry cb fuel e valid m proxy r with
  | none => none
  | some (r, false) => some r
  | some (r, true) => execCatch cb fuel e handler r

/-! ### Client -/

/-- `RpcResult`: value and error flag. -/
structure Result where
  value : JV
  error : Bool
deriving Repr, DecidableEq

/-- Classification of a received message by `processResponse`/`parseResponse` (rpc.cpp:620-677): `response` carries the id and the
result for the pending call. -/
inductive Received where
  | response (id : JV) (r : Result)
  | request
  | notification
deriving Repr, DecidableEq

/-- `response[name]`. -/
def memberOf (v : JV) (name : Bytes) : JV :=
  match v with
  | .obj l => (Obj.member l name).getD .undef
  | _ => .undef

/-- `defined()`. -/
def isDef (v : JV) : Bool := defd v
/-- `isNull()`. -/
def isNull : JV → Bool
  | .null => true
  | _ => false

/-- `processResponse` up to the lookup of the pending call (rpc.cpp:656-668). -/
def classify (msg : JV) : Received :=
  let id := memberOf msg (ascii "id")
  if answerable id then
    let result := memberOf msg (ascii "result")
    let error := memberOf msg (ascii "error")
    if isDef result || isDef error then
      if isDef result && (!isDef error || isNull error) then .response id ⟨result, false⟩
      else .response id ⟨error, true⟩
    else .request
  else .notification

/-- How a call was completed: by a response or cancellation with this id, or because its pending entry was refused. -/
inductive Outcome where
  | answered (id : Nat) (r : Result)
  | cancelled (id : Nat) (r : Result)
  | dropped
deriving Repr, DecidableEq

/-- `AbstractRpcClient` (rpc.h:866-1086): counter of identifiers (`unsigned int`), pending calls by identifier; calls are numbered in the
order of issue; `ver` – protocol version (second or not), `none` uninitialised. `dead` – calls whose storage on the stack is gone. `issued`, `done` record history. -/
structure Client where
  ver : Option Bool := some true
  counter : Nat := 0
  next : Nat := 0
  pend : List (Nat × Nat) := []
  dead : List Nat := []
  issued : List (Nat × Nat) := []
  done : List (Nat × Outcome) := []
deriving Repr, DecidableEq

/-- Operations on a client. `call` – prepared and executed (asynchronous, or synchronous until sent); `callThrow` – a synchronous call
whose `sendRequest` throws; `genId` – an identifier that is not used for a call (`operator()` without context takes two, rpc.cpp:552-557, and a
prepared call may be dropped); `response`; `cancel`; `cancelAll`; `filter` – `filterPendingCalls` and completion of the calls it returns.
Functions called on completion run outside of the lock; what they do with the client are further operations; a `cancelAll` interleaved
with other operations is a sequence of `cancel`. Identifiers are unsigned numbers; other identifiers match no call. -/
inductive COp where
  | call
  | callThrow
  | genId
  | response (id : Nat) (r : Result)
  | cancel (id : Nat) (r : Result)
  | cancelAll (r : Result)
  | filter (keep : List Nat) (r : Result)

/-- `genRequestID` (rpc.cpp:819-823). -/
def gen (c : Client) : Nat × Client :=
  let id := (c.counter + 1) % 2 ^ 32
  (id, { c with counter := id })

/-- `callMap.find(id)`. -/
def findId (l : List (Nat × Nat)) (id : Nat) : Option Nat := (l.find? (fun e => e.1 == id)).map (·.2)

/-- `addPendingCall` (rpc.cpp:703-705): `emplace` refuses an identifier already present, the new call object is destroyed, which calls
its function with the empty result (rpc.h:1098-1104, rpc.cpp:539-540). -/
def addPending (c : Client) (id : Nat) : Client :=
  let t := c.next
  let c := { c with next := t + 1, issued := c.issued ++ [(t, id)] }
  match findId c.pend id with
  | some _ => { c with done := c.done ++ [(t, .dropped)] }
  | none => { c with pend := (id, t) :: c.pend }

/-- `cancelPendingCall` (rpc.cpp:582-591): the call is removed and completed. Storage that is gone must not be touched. -/
def complete (c : Client) (id : Nat) (o : Outcome) : Res Client :=
  match findId c.pend id with
  | none => .ok c
  | some t =>
    let c := { c with pend := c.pend.filter (fun e => e.1 != id) }
    if t ∈ c.dead then .ub else .ok { c with done := c.done ++ [(t, o)] }

/-- `cancelAllPendingCalls` (rpc.cpp:593-601) after the identifiers were collected. -/
def completeAll (c : Client) (r : Result) : List Nat → Res Client
  | [] => .ok c
  | id :: ids => do
    let c ← complete c id (.cancelled id r)
    completeAll c r ids

/-- One operation. A synchronous call that throws in `sendRequest` leaves its entry in the map (rpc.cpp:528-550). The version is read to
prepare a call (rpc.cpp:562). -/
def cstep (c : Client) : COp → Res Client
  | .call =>
    if c.ver.isNone then .ub
    else .ok (addPending (gen c).2 (gen c).1)
  | .callThrow =>
    if c.ver.isNone then .ub
    else .ok { addPending (gen c).2 (gen c).1 with dead := c.next :: c.dead }
  | .genId => .ok (gen c).2
  | .response id r => complete c id (.answered id r)
  | .cancel id r => complete c id (.cancelled id r)
  | .cancelAll r => completeAll c r (c.pend.map (·.1))
  | .filter keep r => completeAll c r ((c.pend.map (·.1)).filter (fun id => !keep.contains id))

/-- A sequence of operations. -/
def crun (c : Client) : List COp → Res Client
  | [] => .ok c
  | o :: ops => do
    let c ← cstep c o
    crun c ops

/-- The copy constructor (rpc.h:991) sets the counter only. -/
def copyOf (_ : Client) : Client := { ver := none }

/-! ### Context -/

/-- `AbstractRpcClient::updateContext` (rpc.cpp:694-701): null members are unset, others set. `ctx`, `ch` are the members of the context and of
the change (none for other types). -/
def updateContext (ctx ch : Members JV) : Members JV :=
  (ObjB.commit defd (ch.foldl (fun s m => if isNull m.2 then ObjB.unset defd .undef s m.1 else ObjB.setInternal defd s m)
    (ObjB.ofBase ctx))).1

/-! ### Multicall -/

/-- An answer of a called method: result with a change of the context, or error. -/
inductive Ans where
  | result (v ctx : JV)
  | error (e : JV)
deriving Repr

/-- Behaviour of one called method: it answers the given number of times before it returns and drops the request, or keeps the request and
answers once later. -/
inductive Sub where
  | now (l : List Ans)
  | later (a : Ans)
deriving Repr

/-- `MulticallContext` (rpc.cpp:366-383); `freed` – deleted; `wait` – answer of a method which kept the request; `sent` – values and
contexts passed to `setResult` of the outer request. -/
structure Multi where
  todo : List Sub
  results : List JV := []
  errors : List JV := []
  change : Members JV := []
  fork : Nat := 0
  freed : Bool := false
  wait : Option Ans := none
  sent : List (JV × JV) := []
deriving Repr

/-- Members of a value as the loop `for (Value v : value)` of `updateContext` (rpc.cpp:696) takes them: items of arrays have no key,
`getKey` says the empty text for them (items of received arrays; an item that was a member of an object would keep its key). -/
def members : JV → Members JV
  | .obj l => l
  | .arr l => l.map (fun v => ([], v))
  | _ => []

/-- `results.push_back` etc. in `onResult`, `onError` (rpc.cpp:393-398, 404-406). -/
def note (s : Multi) : Ans → Multi
  | .result v ctx =>
    { s with results := s.results ++ [v], change := if isDef ctx then updateContext s.change (members ctx) else s.change }
  | .error e => { s with results := s.results ++ [.null], errors := s.errors ++ [e] }

/-- The error of a request dropped without answer. -/
def dropErr : Ans := .error (.str (ascii "The method did not produce a result"))

mutual
/-- `MulticallContext::run` (rpc.cpp:385-434). Calls made by the server are given by `todo`. `results` and `errors` are builders of arrays:
undefined items are left out when they become values (array.cpp:157-159). -/
def mrun : Nat → Multi → Res Multi
  | 0, _ => .fuel
  | fuel + 1, s =>
    if s.freed then .ub
    else
      match s.todo with
      | [] =>
        .ok { s with
          fork := 0
          sent := s.sent ++ [(build [(ascii "results", .arr (s.results.filter isDef)), (ascii "errors", .arr (s.errors.filter isDef))], .undef)]
          freed := true }
      | .now l :: rest => do
        let s ← answers fuel { s with todo := rest, fork := 0 } (if l.isEmpty then [dropErr] else l)
        if s.freed then .ub
        else if s.fork + 1 = 2 then mrun fuel { s with fork := s.fork + 1 } else .ok { s with fork := s.fork + 1 }
      | .later a :: rest => .ok { s with todo := rest, fork := 1, wait := some a }
/-- Answers of one method in order (rpc.cpp:393-411). -/
def answers : Nat → Multi → List Ans → Res Multi
  | _, s, [] => .ok s
  | 0, _, _ :: _ => .fuel
  | fuel + 1, s, a :: l => do
    let s ← answer fuel s a
    answers fuel s l
/-- One answer. -/
def answer : Nat → Multi → Ans → Res Multi
  | 0, _, _ => .fuel
  | fuel + 1, s, a =>
    if s.freed then .ub
    else
      let s := note s a
      if s.fork + 1 = 2 then mrun fuel { s with fork := s.fork + 1 } else .ok { s with fork := s.fork + 1 }
end

/-- The delayed answers arrive one after another until none is missing. -/
def deliver : Nat → Multi → Res Multi
  | 0, _ => .fuel
  | fuel + 1, s =>
    match s.wait with
    | none => .ok s
    | some a => do
      let s ← answer fuel { s with wait := none } a
      deliver fuel s

end Imt.Rpc
