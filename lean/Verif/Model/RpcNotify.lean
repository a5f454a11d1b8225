import Verif.Model.RpcServer
/-! # Notifications of JSON-RPC (`rpc.cpp`, `rpc.h`) -/
namespace Imt.Rpc
open Imt Imt.Obj Imt.ObjB

/-- `RpcNotify` (rpc.h:70-86). A `String` made from a value that is not a string keeps that value, so the name is any value. -/
structure Notify where
  name : JV
  data : JV
  context : JV := .undef
deriving Repr, DecidableEq

/-- `formatNotify` (rpc.cpp:76-87). -/
def formatNotify (v2 : Bool) (n : Notify) : JV :=
  if v2 then build [(ascii "method", n.name), (ascii "params", n.data), (ascii "jsonrpc", .str (ascii "2.0")),
    (ascii "context", n.context)]
  else build [(ascii "id", .null), (ascii "method", n.name), (ascii "params", n.data), (ascii "context", n.context)]

/-- `RpcNotify(js)` (rpc.cpp:781-785). -/
def ofMsg (js : JV) : Notify :=
  { name := memberOf js (ascii "method"), data := memberOf js (ascii "params") }

/-- Data of `RpcNotify::asRequest` (rpc.cpp:802-804). -/
def asRequest (n : Notify) : Parsed :=
  { method := n.name, params := n.data, id := .undef, context := n.context, version := .undef }

/-- `RpcServer::exec` (rpc.cpp:284-318) of `RpcNotify(js).asRequest()`; its callback takes nothing (rpc.cpp:803). -/
def serveNotify (s : Server) (what : JV) (fuel : Nat) (n : Notify) : Option Req :=
  let c := create {} (asRequest n)
  exec (fun _ => ⟨[], some false⟩) fuel (errsOf s c.1 what) (validReq c.1) ((findM s.reg (nameOf c.1.method)).map (· c.1))
    (s.proxy.map (· c.1)) (s.handler.map (· c.1)) c.2

end Imt.Rpc
