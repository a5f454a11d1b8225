import Verif.Model.RpcServer
/-!
# Built-in methods of the RPC server: help, list of methods with a proxy; selection of pending calls (`rpc.cpp`)
-/
namespace Imt.Rpc
open Imt Imt.Obj Imt.ObjB

/-- `getString()` of a value: text of strings and precise numbers, otherwise the empty text (abstractValue.cpp, stringValue.h). -/
def textOf : JV → Bytes
  | .str s => s
  | .num (.prec t _) => t
  | _ => []

/-- `req[0]` (rpc.cpp:218-220; value.h `operator[](std::size_t)`): the first item or member, undefined when there is none. -/
def firstOf : JV → JV
  | .arr (v :: _) => v
  | .obj (m :: _) => m.2
  | _ => .undef

/-- `add_help` (rpc.cpp:483-491): `String n(req[0])` keeps the value, its text is used as the name. -/
def help (content : JV) : Method := fun p => ⟨[.setResult (memberOf content (textOf (firstOf p.params))) .undef], some true⟩

/-- Items of `v` for `addSet(const Value &)` (array.cpp:36-41): items of arrays, values of members of objects. -/
def itemsOf : JV → List JV
  | .arr l => l
  | .obj l => l.map (·.2)
  | _ => []

/-- The message as the callback sees it; the heart beat is the undefined value (rpc.cpp:750-752). Notifications are not sent: the flags are
zero (rpc.cpp:345-352, rpc.h:437). -/
def msgBody : Msg → JV
  | .result m => m
  | .error m => m
  | .notify _ _ => .undef
  | .beat => .undef

/-- Value passed to `setResult` of the caller's request by the callback of the forwarded request (rpc.cpp:352-359). Undefined items are
left out when the array is made (array.cpp:157-159). -/
def listedWith (own : List JV) (m : Msg) : JV := .arr ((own ++ itemsOf (memberOf (msgBody m) (ascii "result"))).filter isDef)

/-- `listMethods` with a proxy (rpc.cpp:335-364). The proxy is given a request of its own, made from the parts of the caller's request;
its operations on that request, also those done after the proxy returned, are the operations of `px`; every message it hands out makes
a `setResult` of the caller's request. `srv` tells whether the proxy passes the request to a server (`init`, rpc.cpp:286). An exception of the callback of the
caller is not followed through the proxy. -/
def listVia (reg : List (Bytes × Method)) (px : Method) (srv : Bool) (fuel : Nat) : Method := fun p =>
  let own := reg.map fun e => JV.str e.1
  let c := create {} p
  match perform (fun _ => ⟨[], some true⟩) fuel { c.2 with srv := srv } (px c.1).ops with
  | none => ⟨[], none⟩
  | some (r, _) =>
    let fwd := r.out.map fun m => Op.setResult (listedWith own m) .undef
    match (px c.1).ret with
    | none => ⟨fwd, none⟩
    | some true => ⟨fwd, some true⟩
    | some false => ⟨fwd ++ [.setResult (.arr own) .undef], some true⟩

/-! ### Selection of pending calls -/

/-- `filterPendingCalls` (rpc.cpp:603-618): `pend` – the map of pending calls; `none` – a call moved away. Result: the new map and
the calls handed out. -/
def moveOut (pend : List (Nat × Option Nat)) (id : Nat) : List (Nat × Option Nat) :=
  pend.map fun e => if e.1 == id then (e.1, none) else e

/-- The loop over the kept identifiers (rpc.cpp:607-612): `emplace` keeps a present entry; the pointer is moved from the old map anyway. -/
def keepLoop : List Nat → List (Nat × Option Nat) → List (Nat × Option Nat) → List (Nat × Option Nat) × List (Nat × Option Nat)
  | [], pend, new => (pend, new)
  | id :: ids, pend, new =>
    match pend.find? (fun e => e.1 == id) with
    | none => keepLoop ids pend new
    | some e => keepLoop ids (moveOut pend id) (if (new.find? (fun x => x.1 == id)).isSome then new else (id, e.2) :: new)

/-- `filterPendingCalls` (rpc.cpp:603-618). -/
def filterCalls (ids : List Nat) (pend : List (Nat × Option Nat)) : List (Nat × Option Nat) × List Nat :=
  let r := keepLoop ids pend []
  (r.2, r.1.filterMap (·.2))

end Imt.Rpc
