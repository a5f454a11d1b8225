import Verif.Model.Rpc
import Verif.Model.Validator
/-!
# The server of JSON-RPC: parsing of requests, methods, dispatch, checking of arguments (`rpc.cpp`, `rpc.h`)
-/
namespace Imt.Rpc
open Imt Imt.Obj Imt.ObjB

/-- `RpcRequest::ParseRequest` (rpc.h:255-266). -/
structure Parsed where
  method : JV
  params : JV
  id : JV
  context : JV
  version : JV
deriving Repr, DecidableEq

/-- `ParseRequest(request)` (rpc.cpp:22-31). -/
def parseReq (v : JV) : Parsed :=
  { method := memberOf v (ascii "method")
    params := memberOf v (ascii "params")
    context := memberOf v (ascii "context")
    id := memberOf v (ascii "id")
    version := memberOf v (ascii "jsonrpc") }

/-- `RpcFlags` (rpc.h:94-110). -/
structure Flags where
  pre : Bool := false
  post : Bool := false
  named : Bool := false

/-- `Value(array, {v})` (value.cpp:378-389): an undefined item is skipped. -/
def arr1 (v : JV) : JV := .arr (if isDef v then [v] else [])

/-- Parameters kept by `RequestData` (rpc.cpp:60-64). -/
def normParams (named : Bool) (p : JV) : JV :=
  match p with
  | .arr _ => p
  | .obj _ => if named then p else arr1 p
  | _ => arr1 p

/-- `RpcRequest::create` with a function (rpc.h:627-647, rpc.cpp:56-66, 833-836): data seen by the methods, and the state. -/
def create (fl : Flags) (p : Parsed) : Parsed × Req :=
  ({ p with params := normParams fl.named p.params },
   { cbs := false, id := p.id, v2 := isDef p.version, post := fl.post, notif := fl.pre })

/-- A registered function: what it does with a request depends on the data of the request. -/
abbrev Method := Parsed → Fn

/-- `RpcServer` (rpc.h:663-821); `reg` – `mapReg`, the newest first; `fmt` – `formatError` (virtual). -/
structure Server where
  reg : List (Bytes × Method) := []
  proxy : Option Method := none
  handler : Option Method := none
  fmt : Int → Bytes → JV → JV

/-- `defaultFormatError` (rpc.cpp:68-74). -/
def defaultFmt (code : Int) (msg : Bytes) (data : JV) : JV :=
  .obj (Obj.mkObject isDef true [(ascii "code", .num (.int code)), (ascii "message", .str msg), (ascii "data", data)])

/-- `find` (rpc.cpp:329-333). -/
def findM (reg : List (Bytes × Method)) (name : Bytes) : Option Method := (reg.find? fun e => e.1 == name).map (·.2)

/-- Changes of the directory of methods. -/
inductive RegOp where
  | add (name : Bytes) (m : Method)
  | remove (name : Bytes)
  | removeAll

/-- `add` (rpc.h:825-855; `unordered_map::insert` keeps a present entry), `remove` (rpc.cpp:320-322), `removeAll` (rpc.cpp:324-326). -/
def regStep (reg : List (Bytes × Method)) : RegOp → List (Bytes × Method)
  | .add n m => if (findM reg n).isSome then reg else (n, m) :: reg
  | .remove n => reg.filter fun e => e.1 != n
  | .removeAll => []

/-- A sequence of changes. -/
def regRun (reg : List (Bytes × Method)) (ops : List RegOp) : List (Bytes × Method) := ops.foldl regStep reg

/-- `name.defined() && name.type() == string`. -/
def nameOk : JV → Bool
  | .str _ => true
  | _ => false
/-- `args.type() == array || args.type() == object || args.type() == undefined`. -/
def argsOk : JV → Bool
  | .arr _ | .obj _ | .undef => true
  | _ => false
/-- `!context.defined() || context.type() == object`. -/
def ctxOk : JV → Bool
  | .undef | .obj _ => true
  | _ => false
/-- The test of the request in `exec` (rpc.cpp:290-291). -/
def validReq (p : Parsed) : Bool := nameOk p.method && argsOk p.params && ctxOk p.context

/-- `name.getString()` of a string. -/
def nameOf : JV → Bytes
  | .str s => s
  | _ => []

/-- Errors of `exec` (rpc.cpp:296, 301, 306-315; rpc.cpp:736-739). `what` – text of the exception, undefined if it has none. -/
def errsOf (s : Server) (p : Parsed) (what : JV) : Errs where
  notFound := s.fmt (-32601) (ascii "Method not found") p.method
  invalid := s.fmt (-32600) (ascii "Invalid request") .undef
  internal := s.fmt (-32603) (ascii "Internal error") what

/-- `RpcServer::exec` (rpc.cpp:284-318) of a request created from a message. -/
def serve (s : Server) (fl : Flags) (what : JV) (cb : List Msg → Act) (fuel : Nat) (msg : JV) : Option Req :=
  let c := create fl (parseReq msg)
  exec cb fuel (errsOf s c.1 what) (validReq c.1) ((findM s.reg (nameOf c.1.method)).map (· c.1)) (s.proxy.map (· c.1))
    (s.handler.map (· c.1)) c.2

/-! ### Built-in methods -/

/-- `ping` (rpc.cpp:471-475). -/
def ping : Method := fun p => ⟨[.setResult p.params .undef], some true⟩

/-- `listMethods` without a proxy (rpc.cpp:335-364); the order of names is the one of the map. -/
def listMethods (reg : List (Bytes × Method)) : Method := fun _ => ⟨[.setResult (.arr (reg.map fun e => .str e.1)) .undef], some true⟩

/-! ### Calls of the client -/

/-- Message of a call (rpc.cpp:559-576). -/
def callMsg (v2 : Bool) (id : Nat) (method : Bytes) (args ctx : JV) : JV :=
  if v2 then build [(ascii "method", .str method), (ascii "params", args), (ascii "id", .num (.uint id)), (ascii "jsonrpc", .str (ascii "2.0")),
    (ascii "context", ctx)]
  else build [(ascii "method", .str method), (ascii "params", args), (ascii "id", .num (.uint id)), (ascii "context", ctx)]

/-- `processResponse` (rpc.cpp:656-677): the pending call of the identifier is completed. Identifiers other than unsigned numbers match
none. -/
def receive (c : Client) (msg : JV) : Res Client :=
  match classify msg with
  | .response (.num (.uint id)) r => cstep c (.response id r)
  | _ => .ok c

/-! ### Arguments -/

/-- `RpcRequest::checkArgs` (rpc.cpp:251-258) with `validateArgs` (rpc.cpp:477-481) and `RpcArgValidator::checkArgs` (rpc.cpp:237-240):
a definition which is not an array is put into one. `df` – the custom rules. The validator is new. -/
def checkArgs (env : Valid.Env) (df : Eq.EV) (n : Nat) (args defn : Eq.EV) : Res Bool × Valid.St :=
  let pattern := if Valid.isArr defn then defn else Eq.EV.node 0 [] false .arr (if Valid.defd defn then [defn] else [])
  Valid.evalRuleArray env (Valid.evalRule env df n) args pattern (Valid.items pattern).length 0 [] {}

end Imt.Rpc
