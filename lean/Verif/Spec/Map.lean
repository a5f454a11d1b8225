import Verif.Model.Base
/-!
# Specification of finite maps with byte-string keys

Independent of the library: what a list of key/value pairs means when later pairs win, and when a list is canonical.
-/
namespace Imt.Spec
open Imt

/-- Value of the last pair with key `k`. -/
def lastVal {α} (l : List (Bytes × α)) (k : Bytes) : Option α :=
  match l with
  | [] => none
  | (k', v) :: r => match lastVal r k with
    | some w => some w
    | none => if k' = k then some v else none

/-- Keys strictly increasing in the byte order (hence unique). -/
def StrictSorted {α} (l : List (Bytes × α)) : Prop := l.Pairwise (fun a b => cmpBytes a.1 b.1 = .lt)

instance {α} (l : List (Bytes × α)) : Decidable (StrictSorted l) := inferInstanceAs (Decidable (List.Pairwise _ l))

/-- Value of a key in a canonical list. -/
def lookup {α} (l : List (Bytes × α)) (k : Bytes) : Option α :=
  match l with
  | [] => none
  | (k', v) :: r => if k' = k then some v else lookup r k

end Imt.Spec
