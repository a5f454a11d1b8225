import Verif.Model.RpcServer
/-!
# Which calls a multicall makes (`rpc.cpp`)
-/
namespace Imt.Rpc
open Imt Imt.Obj Imt.ObjB

/-- `v[index]` (value.h:359): item of an array, value of a member of an object, otherwise undefined. -/
def itemAt (v : JV) (i : Nat) : JV :=
  match v with
  | .arr l => l.getD i .undef
  | .obj l => (l.map (·.2)).getD i .undef
  | _ => .undef

/-- `v.size()`. -/
def sizeOf' : JV → Nat
  | .arr l => l.length
  | .obj l => l.length
  | _ => 0

/-- What a multicall does: refuse the request with an error, or make calls (name and parameters) in order. -/
inductive MultiPlan where
  | refuse (code : Int) (msg : Bytes)
  | calls (l : List (JV × JV))
deriving Repr, DecidableEq

/-- The generator for a name and a list of parameters (rpc.cpp:447-452); the state is `pos`. -/
def nextSame (args : JV) (pos : Nat) : (JV × JV) × Nat :=
  if pos < sizeOf' args then ((itemAt args 0, itemAt args pos), pos + 1) else ((.undef, .undef), pos)

/-- The generator for pairs of a name and parameters (rpc.cpp:456-462). -/
def nextPair (args : JV) (pos : Nat) : (JV × JV) × Nat :=
  if pos < sizeOf' args then ((itemAt (itemAt args pos) 0, itemAt (itemAt args pos) 1), pos + 1) else ((.undef, .undef), pos + 1)

/-- Pairs drawn by `MulticallContext::run` (rpc.cpp:385-434): until a name is not defined. -/
def draw (next : Nat → (JV × JV) × Nat) : Nat → Nat → List (JV × JV)
  | 0, _ => []
  | fuel + 1, pos =>
    let r := next pos
    if isDef r.1.1 then r.1 :: draw next fuel r.2 else []

/-- The method added by `add_multicall` (rpc.cpp:442-469). `args` are the parameters of the request; both generators end after at most as many
calls as there are parameters. -/
def multicall (args : JV) : MultiPlan :=
  if sizeOf' args = 0 then .refuse (-32602) (ascii "Empty arguments")
  else match itemAt args 0 with
    | .str _ => .calls (draw (nextSame args) (sizeOf' args + 1) 1)
    | .arr _ => .calls (draw (nextPair args) (sizeOf' args + 1) 0)
    | _ => .refuse (-32602) (ascii "The first argument must be either string or array")

/-- `pick` and `ParseRequest(std::initializer_list<Value>)` (rpc.cpp:40-53). -/
def ofList (l : List JV) : Parsed :=
  { method := l.getD 0 .undef, params := l.getD 1 .undef, id := l.getD 2 .undef, context := l.getD 3 .undef, version := l.getD 4 .undef }

/-- The request made for one call (rpc.cpp:389, 424, 839-877): `RpcFlags::notify` without named parameters. -/
def subReq (req : Parsed) (context : JV) (c : JV × JV) : Parsed :=
  { method := c.1, params := normParams false c.2, id := req.id, context := context, version := req.version }

end Imt.Rpc
