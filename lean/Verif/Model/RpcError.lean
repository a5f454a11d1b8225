import Verif.Model.RpcServer
import Verif.Model.Conv
/-!
# Errors of RPC: how they are reported and what the caller gets
-/
namespace Imt.Rpc
open Imt Imt.Obj Imt.ObjB

/-- `RpcResult::makeError` (rpc.cpp:891-896). -/
def makeError (code : Int) (msg : Bytes) (data : JV) : Result :=
  ⟨build [(ascii "code", .num (.int code)), (ascii "message", .str msg), (ascii "data", data)], true⟩

/-- `getErrorCode` (rpc.h:55): the `Int` of `getInt` becomes an `int`. -/
def errorCode (fp : Conv.FP) (r : Result) : Res Int :=
  match Conv.getInt fp (memberOf r.value (ascii "code")) with
  | .ok i => .ok (Conv.wrap32 i)
  | e => e

/-- `getErrorMessage` (rpc.h:56): `getString` gives the text of a string or of a precise number, the empty text of anything else
(stringValue.cpp:33-35, stringValue.cpp:224-227, abstractValue.h:20). -/
def errorMessage (r : Result) : Bytes :=
  match memberOf r.value (ascii "message") with
  | .str s => s
  | .num (.prec t _) => t
  | _ => []

/-- `getErrorData` (rpc.h:57). -/
def errorData (r : Result) : JV := memberOf r.value (ascii "data")

/-- How a method reports an error: `setError(code, message, data)`; `setArgError(rejections)`; `setArgError()` after calls of `checkArgs`, with what
`validateArgs` returned to them; `setInternalError(what)`. -/
inductive Fail where
  | error (code : Int) (msg : Bytes) (data : JV)
  | arg (rejections : JV)
  | argChecked (returned : List JV)
  | internal (what : Option Bytes)

/-- `data->rejections` after calls of `checkArgs` (rpc.cpp:251-258). -/
def rejectionsAfter (returned : List JV) : JV :=
  returned.foldl (fun r v => if isNull v || !isDef v then r else v) .undef

/-- `RpcRequest::checkArgs` (rpc.cpp:251-258): `srv` – a server has executed the request (`init`, rpc.cpp:732-734); `returned` – the result of
its `validateArgs`; `rej` – the rejections so far. The pointer to the server is not tested (253). -/
def checkOn (srv : Bool) (returned rej : JV) : Res (Bool × JV) :=
  if srv then
    if isNull returned || !isDef returned then .ok (true, rej) else .ok (false, returned)
  else .ub

/-- The error object handed to `setError(Value)` (rpc.cpp:264-278, 736-739); `fmt` – `formatError` of the server, or
`defaultFormatError` without one. -/
def failObj (fmt : Int → Bytes → JV → JV) : Fail → JV
  | .error code msg data => fmt code msg data
  | .arg rej => fmt (-32602) (ascii "Invalid params") rej
  | .argChecked ret => fmt (-32602) (ascii "Invalid params") (rejectionsAfter ret)
  | .internal what => fmt (-32603) (ascii "Internal error") (match what with | some w => .str w | none => .undef)

/-- A method that reports the error `f` computes from the request. -/
def failing (fmt : Int → Bytes → JV → JV) (f : Parsed → Fail) : Method := fun p => ⟨[.setError (failObj fmt (f p))], some true⟩

end Imt.Rpc
