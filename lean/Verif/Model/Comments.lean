import Verif.Model.Base
/-!
# Comment filter (`comments.h`)

The source function is a list of characters followed by end marks (`-1`) for ever; `none` is the end mark.
-/
namespace Imt.Comments
open Imt

/-- Loop of the line comment (comments.h:53-56); the loop starts behind the second slash. -/
def skipLine : Bytes → Bytes
  | [] => []
  | d :: r => if d = 13 ∨ d = 10 then r else skipLine r

/-- Loop of the block comment (comments.h:62-72); `prev` is the previous character. -/
def skipBlock (prev : Nat) : Bytes → Bytes
  | [] => []
  | d :: r => if d = 47 ∧ prev = 42 then r else skipBlock d r

theorem skipLine_le (l : Bytes) : (skipLine l).length ≤ l.length := by
  induction l with
  | nil => exact Nat.le_refl _
  | cons d r ih =>
    rw [skipLine]
    split
    · exact Nat.le_succ _
    · exact Nat.le_succ_of_le ih

theorem skipBlock_le (l : Bytes) : ∀ p, (skipBlock p l).length ≤ l.length := by
  induction l with
  | nil => exact fun _ => Nat.le_refl _
  | cons d r ih =>
    intro p
    rw [skipBlock]
    split
    · exact Nat.le_succ _
    · exact Nat.le_succ_of_le (ih d)

/-- State: rest of the source, `nextChar` (`-1` is none), `inStr` (comments.h:95-97). -/
structure St where
  rest : Bytes
  nextChar : Option Nat := none
  inStr : Bool := false
deriving Repr, DecidableEq

/-- `CommentedJSON::operator()` outside of strings with no stored character (comments.h:40-83). A returned end mark leaves the
state at the end of the source. -/
def plain (rest : Bytes) : Option Nat × St :=
  match rest with
  | [] => (none, { rest := [] })
  | c :: r =>
    if c = 34 then (some c, { rest := r, inStr := true })
    else if c = 47 then
      match r with
      | [] => (some c, { rest := [] })
      | d :: r' =>
        if d = 47 then plain (skipLine r')
        else if d = 42 then plain (skipBlock 0 r')
        else (some c, { rest := r', nextChar := some d })
    else (some c, { rest := r })
termination_by rest.length
decreasing_by
  · have := skipLine_le r'; simp only [List.length_cons]; omega
  · have := skipBlock_le r' 0; simp only [List.length_cons]; omega

/-- `CommentedJSON::operator()` (comments.h:15-89). -/
def next (s : St) : Option Nat × St :=
  match s.nextChar with
  | some d => (some d, { s with nextChar := none })
  | none =>
    if s.inStr then
      match s.rest with
      | [] => (none, s)
      | c :: r =>
        if c = 92 then
          match r with
          | [] => (some c, { s with rest := [] })
          | d :: r' => (some c, { s with rest := r', nextChar := some d })
        else if c = 34 then (some c, { s with rest := r, inStr := false })
        else (some c, { s with rest := r })
    else plain s.rest

/-- Characters still to come, an upper bound. -/
def St.size (s : St) : Nat := s.rest.length + (match s.nextChar with | some _ => 1 | none => 0)

theorem plain_size (l : Bytes) : ∀ {c : Nat} {s : St}, plain l = (some c, s) → s.size < l.length := by
  induction h : l.length using Nat.strongRecOn generalizing l with
  | _ n ih =>
    intro c s e
    subst h
    unfold plain at e
    split at e
    · simp at e
    · rename_i c' r
      split at e
      · simp only [Prod.mk.injEq] at e; rw [← e.2]; simp [St.size]
      · split at e
        · split at e
          · simp only [Prod.mk.injEq] at e; rw [← e.2]; simp [St.size]
          · rename_i d r'
            have h1 := skipLine_le r'
            have h2 := skipBlock_le r' 0
            split at e
            · have := ih (skipLine r').length (by simp only [List.length_cons]; omega) _ rfl e
              simp only [List.length_cons]; omega
            · split at e
              · have := ih (skipBlock 0 r').length (by simp only [List.length_cons]; omega) _ rfl e
                simp only [List.length_cons]; omega
              · simp only [Prod.mk.injEq] at e; rw [← e.2]; simp [St.size]
        · simp only [Prod.mk.injEq] at e; rw [← e.2]; simp [St.size]

theorem next_size {s s' : St} {c : Nat} (e : next s = (some c, s')) : s'.size < s.size := by
  obtain ⟨rest, nc, ins⟩ := s
  cases nc with
  | some d =>
    simp only [next, Prod.mk.injEq] at e
    rw [← e.2]; simp [St.size]
  | none =>
    simp only [next] at e
    split at e
    · split at e
      · simp at e
      · split at e
        · split at e <;> (simp only [Prod.mk.injEq] at e; rw [← e.2]; simp [St.size])
        · split at e <;> (simp only [Prod.mk.injEq] at e; rw [← e.2]; simp [St.size])
    · simpa [St.size] using plain_size rest e

/-- Everything the filter returns before the first end mark (a reader such as `Parser` stops there). -/
def output (s : St) : Bytes :=
  match h : next s with
  | (none, _) => []
  | (some c, s') => c :: output s'
termination_by s.size
decreasing_by exact next_size h

/-- `removeComments(fn)` (comments.h:117-120) read to the end. -/
def removeComments (text : Bytes) : Bytes := output { rest := text }

end Imt.Comments
