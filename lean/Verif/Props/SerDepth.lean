import Verif.Model.SerDepth
import Verif.Props.ParserDepth
/-!
# C163 — writing needs a bounded stack
-/
namespace Imt.Props
open Imt Imt.Ser

mutual
theorem serD_spec (u : Bool) (f : Decimal → Bytes) : ∀ (v : JV) (lim : Nat),
    serD u f v lim = if nesting v ≤ lim then .ok (ser u f v) else .abort
  | .undef, 0 => by rw [serD, nesting, if_neg (by omega)] <;> simp
  | .null, 0 => by rw [serD, nesting, if_neg (by omega)] <;> simp
  | .bool _, 0 => by rw [serD, nesting, if_neg (by omega)] <;> simp
  | .num _, 0 => by rw [serD, nesting, if_neg (by omega)] <;> simp
  | .str _, 0 => by rw [serD, nesting, if_neg (by omega)] <;> simp
  | .arr _, 0 => by rw [serD, nesting, if_neg (by omega)]
  | .obj _, 0 => by rw [serD, nesting, if_neg (by omega)]
  | .undef, lim + 1 => by rw [serD, nesting, if_pos (by omega), ser] <;> simp
  | .null, lim + 1 => by rw [serD, nesting, if_pos (by omega), ser] <;> simp
  | .bool b, lim + 1 => by
    rw [serD, ser, nesting, if_pos (c := 1 ≤ lim + 1) (by omega)] <;> simp
  | .num n, lim + 1 => by rw [serD, nesting, if_pos (by omega), ser] <;> simp
  | .str s, lim + 1 => by rw [serD, nesting, if_pos (by omega), ser] <;> simp
  | .arr l, lim + 1 => by
    rw [serD, serItemsD_spec u f l lim, nesting, ser]
    by_cases h : nestingL l ≤ lim
    · rw [if_pos h, if_pos (by omega)]; rfl
    · rw [if_neg h, if_neg (by omega)]; rfl
  | .obj l, lim + 1 => by
    rw [serD, serMembersD_spec u f l lim, nesting, ser]
    by_cases h : nestingM l ≤ lim
    · rw [if_pos h, if_pos (by omega)]; rfl
    · rw [if_neg h, if_neg (by omega)]; rfl
theorem serItemsD_spec (u : Bool) (f : Decimal → Bytes) : ∀ (l : List JV) (lim : Nat),
    serItemsD u f l lim = if nestingL l ≤ lim then .ok (serItems u f l) else .abort
  | [], lim => by rw [serItemsD, nestingL, if_pos (by omega), serItems]
  | [v], lim => by
    rw [serItemsD, serD_spec u f v lim, nestingL, nestingL, serItems]
    simp only [Nat.max_zero]
  | v :: w :: r, lim => by
    rw [serItemsD, serD_spec u f v lim, serItemsD_spec u f (w :: r) lim, serItems]
    have e : nestingL (v :: w :: r) = max (nesting v) (nestingL (w :: r)) := by rw [nestingL]
    rw [e]
    by_cases h : nesting v ≤ lim
    · by_cases h2 : nestingL (w :: r) ≤ lim
      · rw [if_pos h, if_pos h2, if_pos (by omega)]; rfl
      · rw [if_pos h, if_neg h2, if_neg (by omega)]; rfl
    · rw [if_neg h, if_neg (c := max _ _ ≤ lim) (by omega)]; rfl
theorem serMembersD_spec (u : Bool) (f : Decimal → Bytes) : ∀ (l : List (Bytes × JV)) (lim : Nat),
    serMembersD u f l lim = if nestingM l ≤ lim then .ok (serMembers u f l) else .abort
  | [], lim => by rw [serMembersD, nestingM, if_pos (by omega), serMembers]
  | [(k, v)], lim => by
    rw [serMembersD, serD_spec u f v lim, nestingM, nestingM, serMembers]
    simp only [Nat.max_zero]
    by_cases h : nesting v ≤ lim
    · rw [if_pos h, if_pos h]; rfl
    · rw [if_neg h, if_neg h]; rfl
  | (k, v) :: m :: r, lim => by
    rw [serMembersD, serD_spec u f v lim, serMembersD_spec u f (m :: r) lim, serMembers]
    have e : nestingM ((k, v) :: m :: r) = max (nesting v) (nestingM (m :: r)) := by rw [nestingM]
    rw [e]
    by_cases h : nesting v ≤ lim
    · by_cases h2 : nestingM (m :: r) ≤ lim
      · rw [if_pos h, if_pos h2, if_pos (by omega)]; rfl
      · rw [if_pos h, if_neg h2, if_neg (by omega)]; rfl
    · rw [if_neg h, if_neg (c := max _ _ ≤ lim) (by omega)]; rfl
end

/-- C163, writing: the serializer needs exactly as many calls as the value has levels. With fewer the program ends. -/
theorem C163_writing_partial (u : Bool) (f : Decimal → Bytes) (v : JV) (lim : Nat) :
    serD u f v lim = if nesting v ≤ lim then .ok (ser u f v) else .abort := serD_spec u f v lim

/-- An array in an array, and so on. -/
def tower : Nat → JV
  | 0 => .arr []
  | n + 1 => .arr [tower n]

/-- C163 fails when writing: for every stack there is a value, built by `lim` calls of `Array::push_back`, that cannot be
written. -/
theorem C163_violation_writing (u : Bool) (f : Decimal → Bytes) (lim : Nat) : serD u f (tower lim) lim = .abort := by
  have : ∀ n, nesting (tower n) = n + 1 := by
    intro n
    induction n with
    | zero => rfl
    | succ n ih => rw [tower, nesting, nestingL, nestingL, ih, Nat.max_zero]
  rw [serD_spec, this, if_neg (by omega)]

example : serD true (fun _ => []) (.arr [.obj [(ascii "a", .null)], .bool true]) 3 = .ok (ascii "[{\"a\":null},true]") ∧
    serD true (fun _ => []) (.arr [.obj [(ascii "a", .null)], .bool true]) 2 = .abort := by decide +kernel

end Imt.Props
