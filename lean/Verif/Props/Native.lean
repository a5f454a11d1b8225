import Verif.Model.Native
import Mathlib.Data.List.Forall2
/-!
# C142: native data survive the conversion to a value and back
-/
namespace Imt.Props
open Imt Imt.Native

/-- Conversion of `float` to `double` loses nothing, and takes zeros to zeros of the same sign. -/
structure NatLaws (e : Env) : Prop where
  back : ∀ b, e.nar (e.wid b) = b
  zero : e.wid 0 = 0

/-- The same data, except that a negative zero may have become a positive one. -/
def NatSame : (t : Ty) → t.Data → t.Data → Prop
  | .uint, a, b => a = b
  | .int, a, b => a = b
  | .dbl, a, b => a = b ∨ (a = (2 ^ 63 : Nat) ∧ b = (0 : Nat))
  | .flt, a, b => a = b ∨ (a = (2 ^ 31 : Nat) ∧ b = (0 : Nat))
  | .bool, a, b => a = b
  | .str, a, b => a = b
  | .vec t, a, b => List.Forall₂ (NatSame t) a b

/-- Data as the machine has them: bits of 64 and 32. -/
def NatFits : (t : Ty) → t.Data → Prop
  | .uint, n => (show Nat from n) < 2 ^ 64
  | .int, i => -2 ^ 63 ≤ (show Int from i) ∧ (show Int from i) < 2 ^ 63
  | .dbl, b => (show Nat from b) < 2 ^ 64
  | .flt, b => (show Nat from b) < 2 ^ 32
  | .bool, _ => True
  | .str, _ => True
  | .vec t, l => ∀ x ∈ (show List t.Data from l), NatFits t x

/-- No negative zero anywhere. -/
def NatNoNeg0 : (t : Ty) → t.Data → Prop
  | .dbl, b => (show Nat from b) ≠ 2 ^ 63
  | .flt, b => (show Nat from b) ≠ 2 ^ 31
  | .vec t, l => ∀ x ∈ (show List t.Data from l), NatNoNeg0 t x
  | _, _ => True

theorem native_dbl (e : Env) (x : Nat) (hf : x < 2 ^ 64) :
    x = getNumber e (ofDbl x) ∨ (x = 2 ^ 63 ∧ getNumber e (ofDbl x) = 0) := by
  unfold ofDbl
  split
  · rename_i h
    simp only [dblZero, beq_iff_eq] at h
    simp only [getNumber, and_true]
    omega
  · exact .inl rfl

theorem native_flt (e : Env) (he : NatLaws e) (x : Nat) (hf : x < 2 ^ 32) :
    x = e.nar (getNumber e (ofFlt e x)) ∨ (x = 2 ^ 31 ∧ e.nar (getNumber e (ofFlt e x)) = 0) := by
  have h0 : e.nar 0 = 0 := by have := he.back 0; rwa [he.zero] at this
  unfold ofFlt
  split
  · rename_i h
    simp only [fltZero, beq_iff_eq] at h
    simp only [getNumber, h0, and_true]
    omega
  · exact .inl (he.back x).symm

theorem native_round (e : Env) (he : NatLaws e) (t : Ty) : ∀ x : t.Data, NatFits t x → NatSame t x (toNative e t (ofNative e t x)) := by
  induction t with
  | uint =>
    intro (x : Nat) _
    show x = getUInt e (ofUInt x)
    unfold ofUInt
    split <;> simp_all [getUInt]
  | int =>
    intro (x : Int) _
    show x = getInt e (ofInt x)
    unfold ofInt
    split <;> simp_all [getInt]
  | dbl =>
    intro x hf
    exact native_dbl e x hf
  | flt =>
    intro x hf
    exact native_flt e he x hf
  | bool => intro x _; rfl
  | str =>
    intro (x : Bytes) _
    show x = getString (ofStr x)
    unfold ofStr
    split <;> simp_all [getString]
  | vec t ih =>
    intro (x : List t.Data) (hf : ∀ y ∈ x, NatFits t y)
    show List.Forall₂ (NatSame t) x (List.map (toNative e t) (items (.arr (List.map (ofNative e t) x))))
    simp only [items, List.map_map]
    induction x with
    | nil => exact .nil
    | cons a r ihr =>
      exact .cons (ih a (hf a List.mem_cons_self)) (ihr fun y hy => hf y (List.mem_cons_of_mem _ hy))

/-- C142: data of any type conv.h knows – numbers, strings, vectors of them to any depth – come back as they were, except
that negative zeros may become positive. -/
theorem C142_round (e : Env) (he : NatLaws e) (t : Ty) (x : t.Data) (hf : NatFits t x) :
    NatSame t x (toNative e t (ofNative e t x)) := native_round e he t x hf

/-- An environment for the examples: only the laws matter. -/
def natEnv : Env := ⟨id, fun n => n, id, Int.toNat, List.length, fun s => s.length, List.length, id, id⟩

example : NatLaws natEnv := ⟨fun _ => rfl, rfl⟩
example : NatFits (.vec (.vec .int)) ([[1, -5], [], [0]] : List (List Int)) := by
  show ∀ x ∈ ([[1, -5], [], [0]] : List (List Int)), ∀ y ∈ x, -2 ^ 63 ≤ y ∧ y < 2 ^ 63
  decide
example : toNative natEnv (.vec (.vec .int)) (ofNative natEnv (.vec (.vec .int)) ([[1, -5], [], [0]] : List (List Int)))
    = ([[1, -5], [], [0]] : List (List Int)) := rfl

theorem natSame_eq (t : Ty) : ∀ x y : t.Data, NatSame t x y → NatNoNeg0 t x → x = y := by
  induction t with
  | dbl => intro x y h hn; rcases h with h | h; exact h; exact absurd h.1 hn
  | flt => intro x y h hn; rcases h with h | h; exact h; exact absurd h.1 hn
  | vec t ih =>
    intro (x : List t.Data) (y : List t.Data) (h : List.Forall₂ (NatSame t) x y) (hn : ∀ z ∈ x, NatNoNeg0 t z)
    show x = y
    induction h with
    | nil => rfl
    | cons h1 _ ihr =>
      rw [ih _ _ h1 (hn _ List.mem_cons_self), ihr fun z hz => hn z (List.mem_cons_of_mem _ hz)]
  | _ => intro x y h _; exact h

/-- C142 (partial: no negative zeros): data come back exactly. -/
theorem C142_exact_partial (e : Env) (he : NatLaws e) (t : Ty) (x : t.Data) (hf : NatFits t x) (h0 : NatNoNeg0 t x) :
    toNative e t (ofNative e t x) = x := (natSame_eq t _ _ (native_round e he t x hf) h0).symm

example : NatNoNeg0 (.vec .dbl) ([0, 5] : List Nat) := by
  show ∀ x ∈ ([0, 5] : List Nat), x ≠ 2 ^ 63
  decide

/-- C142 (partial: no negative zeros): different data give different values. -/
theorem C142_injective_partial (e : Env) (he : NatLaws e) (t : Ty) (x y : t.Data) (hx : NatFits t x) (hy : NatFits t y)
    (h0 : NatNoNeg0 t x) (h1 : NatNoNeg0 t y) (h : ofNative e t x = ofNative e t y) : x = y := by
  rw [← C142_exact_partial e he t x hx h0, h, C142_exact_partial e he t y hy h1]

example : NatFits .str ([1, 2] : Bytes) ∧ NatNoNeg0 .str ([1, 2] : Bytes) := ⟨trivial, trivial⟩

/-- C142: the vector has as many elements as the value has items, whatever the value and the type of elements. -/
theorem C142_size (e : Env) (t : Ty) (v : NV) : (show List t.Data from toNative e (.vec t) v).length = (items v).length :=
  List.length_map _

/-- C142: data read as another type: integers keep their value modulo `2^64` (and the value itself where the other type has
it), a truth value counts 0 or 1, numbers other than zero and texts other than the empty one count as true. -/
theorem C142_cross (e : Env) (i : Int) (hi : -2 ^ 63 ≤ i ∧ i < 2 ^ 63) (n : Nat) (hn : n < 2 ^ 64) (b : Bool) (s : Bytes) (d : Nat)
    (hd : d < 2 ^ 64) :
    (∃ u : Nat, toNative e .uint (ofNative e .int i) = u ∧ u < 2 ^ 64 ∧ ((u : Int) = i ∨ (u : Int) = i + 2 ^ 64)) ∧
    (∃ j : Int, toNative e .int (ofNative e .uint n) = j ∧ -2 ^ 63 ≤ j ∧ j < 2 ^ 63 ∧ (j = n ∨ j = n - 2 ^ 64)) ∧
    toNative e .uint (ofNative e .bool b) = b.toNat ∧ toNative e .int (ofNative e .bool b) = (b.toNat : Int) ∧
    toNative e .bool (ofNative e .int i) = decide (i ≠ 0) ∧ toNative e .bool (ofNative e .uint n) = decide (n ≠ 0) ∧
    toNative e .bool (ofNative e .dbl d) = decide (d ≠ 0 ∧ d ≠ 2 ^ 63) ∧
    toNative e .bool (ofNative e .str s) = decide (s ≠ []) := by
  refine ⟨?_, ?_, ?_, ?_, ?_, ?_, ?_, ?_⟩
  · refine ⟨_, rfl, ?_⟩
    show getUInt e (ofInt i) < _ ∧ _
    unfold ofInt
    split
    · simp [toNative, ofNative, ofInt, getUInt, *]
    · simp only [toNative, ofNative, ofInt, getUInt, if_neg, *]
      simp
      omega
  · refine ⟨_, rfl, ?_⟩
    simp only [toNative, ofNative, ofUInt]
    split
    · subst n; simp [getInt]
    · simp only [getInt]; omega
  · cases b <;> rfl
  · cases b <;> rfl
  · show getBool (ofInt i) = _
    unfold ofInt
    split <;> simp [getBool, *]
  · show getBool (ofUInt n) = _
    unfold ofUInt
    split <;> simp [getBool, *]
  · show getBool (ofDbl d) = _
    unfold ofDbl dblZero
    split
    · rename_i h
      have h : d % 2 ^ 63 = 0 := by simpa using h
      have : ¬ (d ≠ 0 ∧ d ≠ 2 ^ 63) := by omega
      simp [getBool, this]
    · rename_i h
      have h : ¬ d % 2 ^ 63 = 0 := by simpa using h
      have : d ≠ 0 ∧ d ≠ 2 ^ 63 := by constructor <;> rintro rfl <;> simp at h
      simp [getBool, this]
  · show getBool (ofStr s) = _
    unfold ofStr
    split <;> simp [getBool, *]

example : (-2 ^ 63 ≤ (-7 : Int) ∧ (-7 : Int) < 2 ^ 63) ∧ (2 ^ 63 + 5 : Nat) < 2 ^ 64 ∧
    toNative natEnv .uint (ofNative natEnv .int (-7 : Int)) = (2 ^ 64 - 7 : Nat) := by
  refine ⟨by omega, by omega, ?_⟩
  show getUInt natEnv (ofInt (-7)) = _
  decide +kernel

/-- C142 does not hold for negative zeros: `value == 0` is true for them too (value.cpp:279, 286), so they become the shared zero, whose
sign is positive. -/
theorem C142_violation_neg0 (e : Env) : (toNative e .dbl (ofNative e .dbl (2 ^ 63 : Nat)) : Nat) = (0 : Nat) := by
  show getNumber e (ofDbl (2 ^ 63)) = 0
  rfl

/-- C142, other types: a boolean read as a floating point number is 1.0 or 0.0 (the bits of IEEE 754), read as an integer 1 or 0. -/
theorem C142_bool (e : Env) (b : Bool) :
    toNative e .dbl (ofNative e .bool b) = (if b then 0x3FF0000000000000 else 0 : Nat) ∧
    toNative e .int (ofNative e .bool b) = (if b then 1 else 0 : Int) ∧
    toNative e .uint (ofNative e .bool b) = (if b then 1 else 0 : Nat) := by
  cases b <;> refine ⟨?_, ?_, ?_⟩ <;> rfl

end Imt.Props
