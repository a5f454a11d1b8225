import Verif.Model.Base
/-!
# What comments are, independently of the filter

A text is a sequence of pieces: strings, comments and other characters.
-/
namespace Imt.Spec.Comments
open Imt

/-- Character of a string: plain, or escaped with a backslash. -/
inductive SItem where
  | raw (c : Nat)
  | esc (c : Nat)

def SItem.text : SItem → Bytes
  | raw c => [c]
  | esc c => [92, c]

def SItem.WF : SItem → Prop
  | raw c => c ≠ 34 ∧ c ≠ 92
  | esc _ => True

/-- Pieces of a text. -/
inductive Piece where
  /-- any character but a quote and a slash -/
  | ch (c : Nat)
  /-- a slash which starts no comment, with the following character -/
  | slash (c : Nat)
  | str (l : List SItem)
  /-- `//` text, end of line (CR or LF) -/
  | line (t : Bytes) (nl : Nat)
  /-- `/*` text `*/` -/
  | block (t : Bytes)

def Piece.text : Piece → Bytes
  | ch c => [c]
  | slash c => [47, c]
  | str l => 34 :: (l.flatMap SItem.text ++ [34])
  | line t nl => 47 :: 47 :: (t ++ [nl])
  | block t => 47 :: 42 :: (t ++ [42, 47])

def Piece.WF : Piece → Prop
  | ch c => c ≠ 34 ∧ c ≠ 47
  | slash c => c ≠ 34 ∧ c ≠ 47 ∧ c ≠ 42
  | str l => ∀ x ∈ l, x.WF
  | line t nl => (∀ c ∈ t, c ≠ 13 ∧ c ≠ 10) ∧ (nl = 13 ∨ nl = 10)
  | block t => ¬ [42, 47] <:+: t

/-- What remains of the piece without comments. -/
def Piece.kept : Piece → Bytes
  | line _ _ => []
  | block _ => []
  | p => p.text

/-- End of a text: possibly an unfinished piece. -/
inductive Tail where
  | none
  | slash
  /-- unfinished string, possibly ending with a backslash -/
  | str (l : List SItem) (back : Bool)
  | line (t : Bytes)
  | block (t : Bytes)

def Tail.text : Tail → Bytes
  | none => []
  | slash => [47]
  | str l b => 34 :: (l.flatMap SItem.text ++ if b then [92] else [])
  | line t => 47 :: 47 :: t
  | block t => 47 :: 42 :: t

def Tail.WF : Tail → Prop
  | none => True
  | slash => True
  | str l _ => ∀ x ∈ l, x.WF
  | line t => ∀ c ∈ t, c ≠ 13 ∧ c ≠ 10
  | block t => ¬ [42, 47] <:+: t

def Tail.kept : Tail → Bytes
  | line _ => []
  | block _ => []
  | p => p.text

end Imt.Spec.Comments
