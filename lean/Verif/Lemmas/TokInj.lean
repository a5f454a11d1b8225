import Verif.Spec.Json
import Mathlib.Data.List.Basic
/-!
# A number has one token

The text of a well-formed number token determines the token.
-/
namespace Imt.Spec
open Imt

theorem dig_range {c : Nat} (h : IsDig c) : 48 ≤ c ∧ c ≤ 57 := h

/-- Digits in front of something that does not begin with a digit. -/
theorem split_digits : ∀ {a b x y : Bytes}, (∀ c ∈ a, IsDig c) → (∀ c ∈ b, IsDig c) → (∀ c r, x = c :: r → ¬ IsDig c) →
    (∀ c r, y = c :: r → ¬ IsDig c) → a ++ x = b ++ y → a = b ∧ x = y
  | [], [], _, _, _, _, _, _, h => ⟨rfl, h⟩
  | [], c :: b, x, y, _, hb, hx, _, h => absurd (hb c (by simp)) (hx c (b ++ y) h)
  | c :: a, [], x, y, ha, _, _, hy, h => absurd (ha c (by simp)) (hy c (a ++ x) h.symm)
  | c :: a, d :: b, x, y, ha, hb, hx, hy, h => by
    obtain ⟨h1, h2⟩ := List.cons.inj h
    obtain ⟨h3, h4⟩ := split_digits (fun c hc => ha c (List.mem_cons_of_mem _ hc)) (fun c hc => hb c (List.mem_cons_of_mem _ hc)) hx hy h2
    exact ⟨by rw [h1, h3], h4⟩

theorem expText_head {e : Option (Nat × Bytes × Bytes)} (he : ∀ x ∈ e, (x.1 = 0x65 ∨ x.1 = 0x45)) (c : Nat) (r : Bytes)
    (h : expText e = c :: r) : c = 0x65 ∨ c = 0x45 := by
  cases e with
  | none => cases h
  | some x =>
    have := (List.cons.inj h).1
    rw [← this]
    exact he x rfl

theorem tailText_head {f : Option Bytes} {e : Option (Nat × Bytes × Bytes)} (he : ∀ x ∈ e, (x.1 = 0x65 ∨ x.1 = 0x45)) (c : Nat) (r : Bytes)
    (h : fracText f ++ expText e = c :: r) : ¬ IsDig c := by
  intro hc
  have := dig_range hc
  cases f with
  | none =>
    rcases expText_head he c r h with rfl | rfl <;> omega
  | some f =>
    have := (List.cons.inj h).1
    omega

theorem expText_inj {e e' : Option (Nat × Bytes × Bytes)}
    (h : ∀ x ∈ e, (x.1 = 0x65 ∨ x.1 = 0x45) ∧ (x.2.1 = [] ∨ x.2.1 = [0x2B] ∨ x.2.1 = [0x2D]) ∧ Digits1 x.2.2)
    (h' : ∀ x ∈ e', (x.1 = 0x65 ∨ x.1 = 0x45) ∧ (x.2.1 = [] ∨ x.2.1 = [0x2B] ∨ x.2.1 = [0x2D]) ∧ Digits1 x.2.2)
    (he : expText e = expText e') : e = e' := by
  cases e with
  | none => cases e' with
    | none => rfl
    | some y => cases he
  | some x => cases e' with
    | none => cases he
    | some y =>
      obtain ⟨c, s, d⟩ := x
      obtain ⟨c', s', d'⟩ := y
      obtain ⟨-, hs, hd⟩ := h _ rfl
      obtain ⟨-, hs', hd'⟩ := h' _ rfl
      obtain ⟨h1, h2⟩ := List.cons.inj he
      dsimp only at h1 h2 hs hs' hd hd'
      have key : s = s' ∧ d = d' := by
        obtain ⟨a, d, rfl⟩ := List.exists_cons_of_ne_nil hd.1
        obtain ⟨b, d', rfl⟩ := List.exists_cons_of_ne_nil hd'.1
        have ra := dig_range (hd.2 a (by simp))
        have rb := dig_range (hd'.2 b (by simp))
        rcases hs with rfl | rfl | rfl <;> rcases hs' with rfl | rfl | rfl <;>
          simp only [List.nil_append, List.cons_append, List.cons.injEq, true_and] at h2 <;>
          first
          | exact ⟨rfl, by rw [h2.1, h2.2]⟩
          | (exfalso; have := h2.1; omega)
      rw [h1, key.1, key.2]

/-- The text of a well-formed number token determines it. -/
theorem text_inj {s t : NumTok} (hs : s.WF) (ht : t.WF) (h : s.text = t.text) : s = t := by
  have h' : (s.neg = t.neg) ∧ s.int ++ (fracText s.frac ++ expText s.exp) = t.int ++ (fracText t.frac ++ expText t.exp) := by
    unfold NumTok.text at h
    obtain ⟨a, x, hx⟩ := List.exists_cons_of_ne_nil hs.int.1.1
    obtain ⟨b, y, hy⟩ := List.exists_cons_of_ne_nil ht.int.1.1
    have ra := dig_range (hs.int.1.2 a (by rw [hx]; simp))
    have rb := dig_range (ht.int.1.2 b (by rw [hy]; simp))
    cases hsn : s.neg <;> cases htn : t.neg <;> rw [hsn, htn] at h
    · exact ⟨rfl, h⟩
    · exfalso
      rw [hx] at h
      have := (List.cons.inj h).1
      omega
    · exfalso
      rw [hy] at h
      have := (List.cons.inj h).1
      omega
    · exact ⟨rfl, (List.cons.inj h).2⟩
  obtain ⟨h1, h2⟩ := h'
  have es : ∀ x ∈ s.exp, (x.1 = 0x65 ∨ x.1 = 0x45) := fun x hx => (hs.exp x hx).1
  have et : ∀ x ∈ t.exp, (x.1 = 0x65 ∨ x.1 = 0x45) := fun x hx => (ht.exp x hx).1
  obtain ⟨h3, h4⟩ := split_digits hs.int.1.2 ht.int.1.2 (tailText_head es) (tailText_head et) h2
  have h5 : s.frac = t.frac ∧ expText s.exp = expText t.exp := by
    cases hsf : s.frac with
    | none =>
      cases htf : t.frac with
      | none => rw [hsf, htf] at h4; exact ⟨rfl, h4⟩
      | some g =>
        rw [hsf, htf] at h4
        rcases expText_head es _ _ h4 with h | h <;> omega
    | some f =>
      cases htf : t.frac with
      | none =>
        rw [hsf, htf] at h4
        rcases expText_head et _ _ h4.symm with h | h <;> omega
      | some g =>
        rw [hsf, htf] at h4
        have h6 := (List.cons.inj h4).2
        have nd : ∀ (e : Option (Nat × Bytes × Bytes)), (∀ x ∈ e, (x.1 = 0x65 ∨ x.1 = 0x45)) → ∀ c r, expText e = c :: r → ¬ IsDig c := by
          intro e he c r hc hd
          have := dig_range hd
          rcases expText_head he c r hc with rfl | rfl <;> omega
        obtain ⟨h7, h8⟩ := split_digits (hs.frac f hsf).2 (ht.frac g htf).2 (nd _ es) (nd _ et) h6
        exact ⟨by rw [h7], h8⟩
  have h6 := expText_inj hs.exp ht.exp h5.2
  cases s; cases t
  dsimp only at h1 h3 h5 h6
  rw [h1, h3, h5.1, h6]

end Imt.Spec
