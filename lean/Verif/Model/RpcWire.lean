import Verif.Model.RpcServer
import Verif.Model.Serializer
import Verif.Model.Parser
/-!
# RPC messages sent as text

The transport of messages is left to the program (`AbstractRpcClient::sendRequest`, rpc.h:1008; the function given to `RpcRequest`, rpc.h:627-647); here they
are written by `Value::stringify` and read by `Value::parse`, one after another on the same stream.
-/
namespace Imt.Rpc
open Imt Imt.Obj Imt.ObjB

/-- A message written (value.cpp:110-126, UTF-8 output) in front of `rest` and read by the other side (value.cpp:85-94): what is
read and what stays in the stream. `f` prints doubles. -/
def transfer (f : Decimal → Bytes) (cfg : Parser.Cfg) (rest : Bytes) (v : JV) : Res (JV × Bytes) :=
  do
    let t ← Ser.stringify true f v
    Parser.parse cfg (t ++ rest)

end Imt.Rpc
