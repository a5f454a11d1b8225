import Verif.Model.Equal
import Mathlib.Data.Nat.ModEq
import Mathlib.Data.List.Induction
import Mathlib.Tactic.NormNum
/-!
# The byte hash (C104)
-/
namespace Imt.Props
open Imt Imt.Eq

/-- FNV-1a with 64 bits as published: offset basis 0xcbf29ce484222325, prime 2^40 + 2^8 + 0xb3; each octet is first combined by
exclusive or, then the result is multiplied modulo 2^64. -/
inductive Fnv1a64 : Bytes → Nat → Prop where
  | basis : Fnv1a64 [] 0xcbf29ce484222325
  | octet {l h c} : Fnv1a64 l h → c < 256 → Fnv1a64 (l ++ [c]) ((h ^^^ c) * (2 ^ 40 + 2 ^ 8 + 0xb3) % 2 ^ 64)

theorem fnv_append (l r : Bytes) : fnv (l ++ r) = r.foldl fnvStep (fnv l) := by
  unfold fnv; rw [List.foldl_append]

/-- **C104.** The hash of a byte string is its FNV-1a hash. -/
theorem C104_fnv1a (l : Bytes) (h : ∀ c ∈ l, c < 256) : Fnv1a64 l (fnv l) := by
  induction l using List.reverseRecOn with
  | nil => exact .basis
  | append_singleton l c ih =>
    have h1 := ih (fun x hx => h x (by simp [hx]))
    have h2 := Fnv1a64.octet h1 (h c (by simp))
    rw [fnv_append]
    have e : fnvStep (fnv l) c = (fnv l ^^^ c) * (2 ^ 40 + 2 ^ 8 + 0xb3) % 2 ^ 64 := by
      unfold fnvStep
      rw [Nat.mod_eq_of_lt (h c (by simp)), (by norm_num : (2 ^ 40 + 2 ^ 8 + 0xb3 : Nat) = 1099511628211)]
    rw [List.foldl_cons, List.foldl_nil, e]
    exact h2

/-- Published test vectors. -/
example : fnv [] = 0xcbf29ce484222325 ∧ fnv (ascii "a") = 0xaf63dc4c8601ec8c ∧ fnv (ascii "foobar") = 0x85944171f73967e8 := by
  decide +kernel

theorem fnvStep_lt (h c : Nat) : fnvStep h c < 2 ^ 64 := by
  unfold fnvStep
  exact Nat.mod_lt _ (Nat.two_pow_pos 64)

theorem fnv_lt (l : Bytes) : fnv l < 2 ^ 64 := by
  rcases List.eq_nil_or_concat l with rfl | ⟨l, c, rfl⟩
  · decide +kernel
  · rw [List.concat_eq_append, fnv_append]; rw [List.foldl_cons, List.foldl_nil]; exact fnvStep_lt _ _

theorem nat_xor_left_cancel {a b c : Nat} (h : a ^^^ b = a ^^^ c) : b = c := by
  have := congrArg (a ^^^ ·) h
  simpa [← Nat.xor_assoc] using this

theorem nat_xor_right_cancel {a b c : Nat} (h : a ^^^ c = b ^^^ c) : a = b := by
  rw [Nat.xor_comm a, Nat.xor_comm b] at h
  exact nat_xor_left_cancel h

theorem fnvStep_xor {h c h' c' : Nat} (a : h < 2 ^ 64) (b : h' < 2 ^ 64) (hc : c < 256) (hc' : c' < 256)
    (e : fnvStep h c = fnvStep h' c') : h ^^^ c = h' ^^^ c' := by
  unfold fnvStep at e
  rw [Nat.mod_eq_of_lt hc, Nat.mod_eq_of_lt hc'] at e
  have hg : Nat.gcd (2 ^ 64) 1099511628211 = 1 := by decide +kernel
  have m : h ^^^ c ≡ h' ^^^ c' [MOD 2 ^ 64] := Nat.ModEq.cancel_right_of_coprime hg e
  have l1 : h ^^^ c < 2 ^ 64 := Nat.xor_lt_two_pow a (by omega)
  have l2 : h' ^^^ c' < 2 ^ 64 := Nat.xor_lt_two_pow b (by omega)
  rwa [Nat.ModEq, Nat.mod_eq_of_lt l1, Nat.mod_eq_of_lt l2] at m

theorem fnvFold_inj (r : Bytes) (hr : ∀ c ∈ r, c < 256) : ∀ {h h' : Nat}, h < 2 ^ 64 → h' < 2 ^ 64 →
    r.foldl fnvStep h = r.foldl fnvStep h' → h = h' := by
  induction r with
  | nil => intro h h' _ _ e; exact e
  | cons c r ih =>
    intro h h' b b' e
    rw [List.foldl_cons, List.foldl_cons] at e
    have e1 := ih (fun x hx => hr x (by simp [hx])) (fnvStep_lt h c) (fnvStep_lt h' c) e
    have e2 := fnvStep_xor b b' (hr c (by simp)) (hr c (by simp)) e1
    exact nat_xor_right_cancel e2

/-- **C104.** No state of the hash is lost: strings of different hash keep different hashes when the same bytes follow. -/
theorem C104_suffix (l l' r : Bytes) (hr : ∀ c ∈ r, c < 256) : fnv (l ++ r) = fnv (l' ++ r) ↔ fnv l = fnv l' := by
  rw [fnv_append, fnv_append]
  constructor
  · exact fnvFold_inj r hr (fnv_lt l) (fnv_lt l')
  · intro h; rw [h]

/-- **C104.** Byte strings that differ in exactly one byte never collide. -/
theorem C104_one_byte (l r : Bytes) (x y : Nat) (hx : x < 256) (hy : y < 256) (hr : ∀ c ∈ r, c < 256) (hxy : x ≠ y) :
    fnv (l ++ x :: r) ≠ fnv (l ++ y :: r) := by
  intro h
  have e1 : ∀ z, l ++ z :: r = (l ++ [z]) ++ r := fun z => by simp
  rw [e1, e1, C104_suffix _ _ _ hr, fnv_append, fnv_append, List.foldl_cons, List.foldl_nil, List.foldl_cons, List.foldl_nil] at h
  have := fnvStep_xor (fnv_lt l) (fnv_lt l) hx hy h
  exact hxy (nat_xor_left_cancel this)

/-- **C104.** Appending bytes: the hash of the extended string depends on the first part through its hash only. -/
theorem C104_prefix (l l' r : Bytes) (h : fnv l = fnv l') : fnv (l ++ r) = fnv (l' ++ r) := by
  rw [fnv_append, fnv_append, h]

example : (∀ c ∈ ascii "tail", c < 256) ∧ fnv (ascii "a" ++ ascii "tail") ≠ fnv (ascii "b" ++ ascii "tail") :=
  ⟨by decide, fun h => absurd ((C104_suffix _ _ _ (by decide)).1 h) (by decide)⟩

end Imt.Props
