import Verif.Model.ObjB
/-!
# Context of a connection (`RpcConnContext`, rpc.h:128-180)

Requests hold a pointer to the context of the connection they came from; what one of them stores is seen by the next. The
contexts are numbered here.
-/
namespace Imt.RpcConn
open Imt Imt.ObjB

variable {α : Type}

/-- What requests do with the context of their connection. -/
inductive COp (α : Type) where
  | store (conn : Nat) (k : Bytes) (v : α)
  | retrieve (conn : Nat) (k : Bytes)
deriving Repr

/-- `RpcConnContext::store` (rpc.h:158): `data(key,value)` is `Object::set` (object.cpp:166-168). -/
def store (isDef : α → Bool) (data : OB α) (k : Bytes) (v : α) : OB α := ObjB.set isDef data k v

/-- `RpcConnContext::retrieve` (rpc.h:165): `data[key]`; reading may reorganise the builder. -/
def retrieve (isDef : α → Bool) (undef : α) (data : OB α) (k : Bytes) : Res (α × OB α) := ObjB.get isDef undef data k

/-- The contexts of all connections. -/
abbrev World (α : Type) := Nat → OB α

/-- Every context starts with an empty `Object` (rpc.h:179). -/
def init : World α := fun _ => ObjB.new

/-- Replace one context. -/
def World.put (w : World α) (c : Nat) (d : OB α) : World α := fun x => if x = c then d else w x

/-- A run: the values retrieved, in order. -/
def run (isDef : α → Bool) (undef : α) : List (COp α) → World α → Res (List α × World α)
  | [], w => .ok ([], w)
  | .store c k v :: ops, w => run isDef undef ops (w.put c (store isDef (w c) k v))
  | .retrieve c k :: ops, w => do
    let r ← retrieve isDef undef (w c) k
    let t ← run isDef undef ops (w.put c r.2)
    pure (r.1 :: t.1, t.2)

end Imt.RpcConn
