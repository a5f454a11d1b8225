/-!
# Common definitions

Byte strings, outcomes and JSON numbers shared by the models.
-/
namespace Imt

/-- A byte string. The C++ code stores strings as `char` sequences with a length (`StringView<char>`, absent
submodule `src/imtjson/shared`); a byte is a natural number, `Bytes.Valid` says that it is below 256. -/
abbrev Bytes := List Nat

/-- All elements are bytes. -/
def Bytes.Valid (s : Bytes) : Prop := ∀ b ∈ s, b < 256

instance (s : Bytes) : Decidable (Bytes.Valid s) := inferInstanceAs (Decidable (∀ b ∈ s, b < 256))

/-- Outcome of a modelled C++ call: a result, a thrown exception, undefined behaviour
(out-of-range access, signed overflow, ...), a call of `abort()`, or recursion fuel exhausted (only in models that take fuel; proved
unreachable where the code terminates). -/
inductive Res (α : Type) where
  | ok (a : α)
  | err
  | ub
  | abort
  | fuel
deriving Repr, DecidableEq

namespace Res
/-- Sequencing: the first failure is the outcome. -/
def bind {α β : Type} : Res α → (α → Res β) → Res β
  | ok a, f => f a
  | err, _ => err
  | ub, _ => ub
  | abort, _ => abort
  | fuel, _ => fuel

instance : Monad Res where
  pure := ok
  bind := bind

@[simp] theorem bind_ok {α β} (a : α) (f : α → Res β) : (Res.ok a >>= f) = f a := rfl
@[simp] theorem bind_err {α β} (f : α → Res β) : ((Res.err : Res α) >>= f) = Res.err := rfl
@[simp] theorem bind_ub {α β} (f : α → Res β) : ((Res.ub : Res α) >>= f) = Res.ub := rfl
@[simp] theorem bind_abort {α β} (f : α → Res β) : ((Res.abort : Res α) >>= f) = Res.abort := rfl
@[simp] theorem bind_fuel {α β} (f : α → Res β) : ((Res.fuel : Res α) >>= f) = Res.fuel := rfl
@[simp] theorem pure_eq {α} (a : α) : (pure a : Res α) = Res.ok a := rfl
end Res

/-- Lexicographic comparison of byte strings (`StringView::compare`, absent submodule `shared`): negative, zero,
positive as `Ordering`. -/
def cmpBytes : Bytes → Bytes → Ordering
  | [], [] => .eq
  | [], _ :: _ => .lt
  | _ :: _, [] => .gt
  | a :: as, b :: bs => if a < b then .lt else if b < a then .gt else cmpBytes as bs

/-- Strict order derived from `cmpBytes`. -/
def ltBytes (a b : Bytes) : Bool := cmpBytes a b == .lt

/-- The bytes of an ASCII literal (only used for readable constants). -/
def ascii (s : String) : Bytes := s.toList.map Char.toNat

end Imt
