import Verif.Model.JwtSign
import Verif.Props.Jwt
import Mathlib.Tactic.Ring
import Mathlib.Tactic.Linarith
/-!
# C115–C117, C165: signatures with elliptic curves, RSA and shared keys
-/
namespace Imt.Props
open Imt Imt.Jwt Imt.Spec

/-- The number written by bytes, most significant first. -/
def beVal : Bytes → Nat
  | [] => 0
  | b :: l => b * 256 ^ l.length + beVal l

theorem bin2bn_aux : ∀ (l : Bytes) (a : Nat), l.foldl (fun a x => a * 256 + x) a = a * 256 ^ l.length + beVal l
  | [], a => by simp [beVal]
  | b :: l, a => by
    rw [List.foldl_cons, bin2bn_aux l, beVal, List.length_cons, pow_succ]
    ring
theorem bin2bn_eq (l : Bytes) : bin2bn l = beVal l := by
  rw [bin2bn, bin2bn_aux]; simp

theorem beVal_append (a b : Bytes) : beVal (a ++ b) = beVal a * 256 ^ b.length + beVal b := by
  induction a with
  | nil => simp [beVal]
  | cons x a ih => rw [List.cons_append, beVal, beVal, ih, List.length_append, pow_add]; ring

theorem toBytes_spec : ∀ (len v : Nat), (toBytes v len).length = len ∧ Bytes.Valid (toBytes v len) ∧
    (v < 256 ^ len → beVal (toBytes v len) = v)
  | 0, v => by
    refine ⟨rfl, fun x hx => (List.not_mem_nil hx).elim, ?_⟩
    intro h
    simp at h
    simp [toBytes, beVal, h]
  | len + 1, v => by
    obtain ⟨h1, h2, h3⟩ := toBytes_spec len (v / 256)
    refine ⟨by rw [toBytes, List.length_append, h1]; rfl, ?_, ?_⟩
    · intro x hx
      rw [toBytes] at hx
      rcases List.mem_append.1 hx with hx | hx
      · exact h2 x hx
      · rw [List.mem_singleton] at hx
        rw [hx]
        exact Nat.mod_lt _ (by decide)
    · intro h
      have : v / 256 < 256 ^ len := by rw [pow_succ] at h; exact Nat.div_lt_of_lt_mul (by linarith)
      rw [toBytes, beVal_append, h3 this]
      simp [beVal]
      omega

theorem beVal_lt (l : Bytes) (h : Bytes.Valid l) : beVal l < 256 ^ l.length := by
  induction l with
  | nil => simp [beVal]
  | cons b l ih =>
    have hb : b < 256 := h b (by simp)
    have := ih (fun x hx => h x (by simp [hx]))
    rw [beVal, List.length_cons, pow_succ]
    have h2 : b * 256 ^ l.length ≤ 255 * 256 ^ l.length := Nat.mul_le_mul_right _ (by omega)
    omega

theorem beVal_inj : ∀ (a b : Bytes), a.length = b.length → Bytes.Valid a → Bytes.Valid b → beVal a = beVal b → a = b
  | [], [], _, _, _, _ => rfl
  | x :: a, y :: b, hl, ha, hb, h => by
    simp at hl
    have h1 := beVal_lt a (fun z hz => ha z (by simp [hz]))
    have h2 := beVal_lt b (fun z hz => hb z (by simp [hz]))
    rw [beVal, beVal, hl] at h
    rw [hl] at h1
    have hp : 0 < 256 ^ b.length := by positivity
    have hxy : x = y := by
      have e1 : (x * 256 ^ b.length + beVal a) / 256 ^ b.length = x := by
        rw [Nat.add_comm, Nat.add_mul_div_right _ _ hp, Nat.div_eq_of_lt h1]; simp
      have e2 : (y * 256 ^ b.length + beVal b) / 256 ^ b.length = y := by
        rw [Nat.add_comm, Nat.add_mul_div_right _ _ hp, Nat.div_eq_of_lt h2]; simp
      rw [← e1, ← e2, h]
    subst hxy
    rw [beVal_inj a b hl (fun z hz => ha z (by simp [hz])) (fun z hz => hb z (by simp [hz])) (by omega)]

/-! ## C115 -/

/-- C115: numbers of at most `len` bytes are stored in `2 * len` bytes, and these are read back as the same numbers. Missing: numbers
which do not fit, see the violation. -/
theorem C115_store_partial (r s len : Nat) (hr : r < 256 ^ len) (hs : s < 256 ^ len) : ∃ b, storeES (some (r, s)) len = .ok b ∧
    b.length = 2 * len ∧ Bytes.Valid b ∧ beVal (b.take len) = r ∧ beVal (b.drop len) = s ∧ parseES b = (r, s) := by
  obtain ⟨a1, a2, a3⟩ := toBytes_spec len r
  obtain ⟨b1, b2, b3⟩ := toBytes_spec len s
  have ht : (toBytes r len ++ toBytes s len).take len = toBytes r len := by
    rw [List.take_append_of_le_length (by omega), List.take_of_length_le (by omega)]
  have hd : (toBytes r len ++ toBytes s len).drop len = toBytes s len := by
    rw [List.drop_append_of_le_length (by omega), List.drop_eq_nil_of_le (by omega), List.nil_append]
  have hh : (toBytes r len ++ toBytes s len).length / 2 = len := by rw [List.length_append]; omega
  refine ⟨toBytes r len ++ toBytes s len, ?_, by rw [List.length_append]; omega, ?_, by rw [ht, a3 hr], by rw [hd, b3 hs], ?_⟩
  · unfold storeES bn2binpad
    dsimp only
    rw [if_pos hr, if_pos hs]
  · intro x hx
    rcases List.mem_append.1 hx with hx | hx
    · exact a2 x hx
    · exact b2 x hx
  · unfold parseES
    rw [hh, ht, hd, bin2bn_eq, bin2bn_eq, a3 hr, b3 hs]

/-- The orders of the curves P-256 and P-384 fit the lengths used for them. -/
example : (0xFFFFFFFF00000000FFFFFFFFFFFFFFFFBCE6FAADA7179E84F3B9CAC2FC632551 : Nat) < 256 ^ (256 / 8) := by decide +kernel
example : (0xFFFFFFFFFFFFFFFFFFFFFFFFFFFFFFFFFFFFFFFFFFFFFFFFC7634D81F4372DDF581A0DB248B0A77AECEC196ACCC52973 : Nat) < 256 ^ (384 / 8) := by
  decide +kernel

/-- The order of the curve P-521 used for ES512. -/
def order521 : Nat :=
  0x1FFFFFFFFFFFFFFFFFFFFFFFFFFFFFFFFFFFFFFFFFFFFFFFFFFFFFFFFFFFFFFFFFFFA51868783BF2F966B7FCC0148F709A5D03BB5C9B8899C47AEBB6FB71E91386409

/-- C115 does not hold for ES512: the length used is 64 bytes (jwtcrypto.h:164) while the numbers of that curve have up to 66. Whatever
the second number is, a first number above 2^512 moves the pointer in front of the buffer (undefined behaviour). -/
theorem C115_violation_es512 (k : Ecdsa) (i : Nat) (msg : Bytes) (r s : Nat) (h : k.sign 512 i msg = some (r, s)) (hr : 2 ^ 512 ≤ r) :
    signES k 512 i msg = .ub := by
  unfold signES storeES bn2binpad
  rw [h]
  dsimp only
  rw [if_neg (by have : (256 : Nat) ^ (512 / 8) = 2 ^ 512 := by decide +kernel
                 rw [this]; omega)]

/-- This is the rule: only one of 511 numbers of the curve is below 2^512. -/
theorem C115_violation_es512_usual : 511 * 2 ^ 512 < order521 := by decide +kernel

/-- The other case: only the second number is too long. The signature is cut. -/
theorem C115_violation_es512_cut (k : Ecdsa) (i : Nat) (msg : Bytes) (r s : Nat) (h : k.sign 512 i msg = some (r, s)) (hr : r < 2 ^ 512)
    (hs : 2 ^ 512 ≤ s) : ∃ b, signES k 512 i msg = .ok b ∧ b.length = 63 := by
  have hp : (256 : Nat) ^ (512 / 8) = 2 ^ 512 := by decide +kernel
  refine ⟨(toBytes r 64).take 63, ?_, by rw [List.length_take, (toBytes_spec 64 r).1]; rfl⟩
  unfold signES storeES bn2binpad
  rw [h]
  dsimp only
  rw [if_pos (by rw [hp]; exact hr), if_neg (by rw [hp]; omega)]

example : (2 ^ 520 : Nat) < order521 ∧ (2 ^ 512 : Nat) ≤ 2 ^ 520 := by decide +kernel

theorem signAndCheck_ok (k : Ecdsa) (alg : Nat) (msg : Bytes) : ∀ (n i : Nat) (b : Bytes), signAndCheck k alg msg i n = .ok b →
    verifyES k alg msg b = true
  | 0, _, _, h => by cases h
  | n + 1, i, b, h => by
    rw [signAndCheck] at h
    obtain ⟨r, h1, h2⟩ := bind_okE h
    split at h2
    · next hv => cases h2; exact hv
    · exact signAndCheck_ok k alg msg n (i + 1) b h2

/-- C115: a signature returned for a supported algorithm is accepted with the same key. -/
theorem C115_checked (k : Ecdsa) (size : Nat) (m : Method) (msg b : Bytes)
    (hm : (m.alg = ascii "ES256" ∧ size = 256) ∨ (m.alg = ascii "ES384" ∧ size = 384) ∨ (m.alg = ascii "ES512" ∧ size = 512))
    (h : (es k size).sign msg m = .ok b) : (es k size).verify msg m b = .ok true := by
  have n1 : ascii "ES384" ≠ ascii "ES256" := by decide
  have n2 : ascii "ES512" ≠ ascii "ES256" := by decide
  have n3 : ascii "ES512" ≠ ascii "ES384" := by decide
  rcases hm with ⟨h1, rfl⟩ | ⟨h1, rfl⟩ | ⟨h1, rfl⟩ <;> simp only [es, h1, n1, n2, n3, true_and, false_and, if_true, if_false] at h ⊢ <;>
    rw [signAndCheck_ok _ _ _ _ _ _ h]

example : (es ⟨fun _ _ _ => some (7, 9), fun _ _ p => p == (7, 9)⟩ 256).sign (ascii "x") ⟨ascii "ES256", []⟩ =
    .ok (List.replicate 31 0 ++ [7] ++ List.replicate 31 0 ++ [9]) := by decide +kernel

/-- C115: a key whose signatures fit and verify signs at the first attempt. -/
theorem C115_signs (k : Ecdsa) (alg : Nat) (msg : Bytes) (r s n i : Nat) (h : k.sign alg i msg = some (r, s)) (hr : r < 256 ^ (alg / 8))
    (hs : s < 256 ^ (alg / 8)) (hv : k.verify alg msg (r, s) = true) : ∃ b, signAndCheck k alg msg i (n + 1) = .ok b ∧
      Bytes.Valid b ∧ b.length = 2 * (alg / 8) := by
  obtain ⟨b, h1, h2, h3, -, -, h4⟩ := C115_store_partial r s (alg / 8) hr hs
  refine ⟨b, ?_, h3, h2⟩
  rw [signAndCheck, signES, h, h1, Res.bind_ok, verifyES, h4, hv]
  rfl

/-- C63 with `JWTCrypto_ES` for ES256 and ES384: tokens are accepted with the key they were signed with. -/
theorem C63_es_partial (f : Decimal → Bytes) (tl : Nat → Bool) (htl : ∀ n < 2 ^ 64, tl n = false) (k : Ecdsa) (size : Nat) (alg : Bytes)
    (halg : (alg = ascii "ES256" ∧ size = 256) ∨ (alg = ascii "ES384" ∧ size = 384))
    (hk : ∀ x, ∃ r s, k.sign size 1 x = some (r, s) ∧ r < 256 ^ (size / 8) ∧ s < 256 ^ (size / 8) ∧ k.verify size x (r, s) = true)
    (payload : JV) (hp1 : Printable false f payload) (hp2 : Tripable { tooLong := tl } payload) (hp3 : Plain payload) :
    ∃ t, serializeJWT f payload (es k size) ⟨alg, []⟩ = .ok t ∧ parseJWT tl t (some (es k size)) none = .ok payload := by
  have wf : StrOk false alg := by
    rcases halg with ⟨rfl, -⟩ | ⟨rfl, -⟩ <;>
    exact ⟨.one (by decide) (.one (by decide) (.one (by decide) (.one (by decide) (.one (by decide) .nil)))), Or.inr (by decide)⟩
  have ninf : alg ≠ infSign ∧ alg ≠ 0x2D :: infSign := by rcases halg with ⟨rfl, -⟩ | ⟨rfl, -⟩ <;> decide
  have n1 : ascii "ES384" ≠ ascii "ES256" := by decide
  obtain ⟨t, h1, h2, -⟩ := C63_round_trip_partial f tl htl (es k size) ⟨alg, []⟩ payload hp1 hp2 hp3 wf ninf
    ⟨.nil, Or.inr (by intro b hb; cases hb)⟩ ⟨by simp [infSign], by simp⟩
    (by
      intro x
      obtain ⟨r, s, a1, a2, a3, a4⟩ := hk x
      obtain ⟨b, b1, b2, -⟩ := C115_signs k size x r s 98 1 a1 a2 a3 a4
      refine ⟨b, ?_, b2⟩
      rcases halg with ⟨rfl, rfl⟩ | ⟨rfl, rfl⟩ <;> simp only [es, n1, true_and, false_and, if_true, if_false] <;> exact b1)
    (by
      intro x s h
      refine C115_checked k size ⟨alg, []⟩ x s ?_ h
      rcases halg with h | h
      · exact Or.inl h
      · exact Or.inr (Or.inl h))
  exact ⟨t, h1, h2⟩

example : ∃ k : Ecdsa, ∀ x, ∃ r s, k.sign 256 1 x = some (r, s) ∧ r < 256 ^ (256 / 8) ∧ s < 256 ^ (256 / 8) ∧ k.verify 256 x (r, s) = true :=
  ⟨⟨fun _ _ x => some (x.length % 1000, 5), fun _ x p => decide (p = (x.length % 1000, 5))⟩, fun x => ⟨x.length % 1000, 5, rfl,
    lt_trans (Nat.mod_lt _ (by decide)) (by decide +kernel), by decide +kernel, by simp⟩⟩

/-! ## C116 -/

/-- C116: what is accepted: only the algorithm of the key, only halves whose numbers verify. -/
theorem C116_accepts (k : Ecdsa) (size : Nat) (m : Method) (msg b : Bytes) : (es k size).verify msg m b = .ok true ↔
    ((m.alg = ascii "ES256" ∧ size = 256) ∨ (m.alg = ascii "ES384" ∧ size = 384) ∨ (m.alg = ascii "ES512" ∧ size = 512)) ∧
    k.verify size msg (beVal (b.take (b.length / 2)), beVal (b.drop (b.length / 2))) = true := by
  simp only [es, verifyES, parseES, bin2bn_eq]
  by_cases h1 : m.alg = ascii "ES256" ∧ size = 256
  · rw [if_pos h1]
    obtain ⟨h1, rfl⟩ := h1
    simp [h1]
  · rw [if_neg h1]
    by_cases h2 : m.alg = ascii "ES384" ∧ size = 384
    · rw [if_pos h2]
      obtain ⟨h2, rfl⟩ := h2
      simp [h2]
    · rw [if_neg h2]
      by_cases h3 : m.alg = ascii "ES512" ∧ size = 512
      · rw [if_pos h3]
        obtain ⟨h3, rfl⟩ := h3
        simp [h3]
      · rw [if_neg h3]
        simp [h1, h2, h3]

/-- C116: of two signatures of the same even length with the same numbers there is only one. -/
theorem C116_unique_partial (a b : Bytes) (n : Nat) (ha : a.length = 2 * n) (hb : b.length = 2 * n) (va : Bytes.Valid a) (vb : Bytes.Valid b)
    (h : parseES a = parseES b) : a = b := by
  unfold parseES at h
  have h1 : a.length / 2 = n := by omega
  have h2 : b.length / 2 = n := by omega
  rw [h1, h2, bin2bn_eq, bin2bn_eq, bin2bn_eq, bin2bn_eq] at h
  obtain ⟨e1, e2⟩ := Prod.mk.inj h
  have t := beVal_inj (a.take n) (b.take n) (by rw [List.length_take, List.length_take]; omega) (fun x hx => va x (List.mem_of_mem_take hx))
    (fun x hx => vb x (List.mem_of_mem_take hx)) e1
  have d := beVal_inj (a.drop n) (b.drop n) (by rw [List.length_drop, List.length_drop]; omega) (fun x hx => va x (List.mem_of_mem_drop hx))
    (fun x hx => vb x (List.mem_of_mem_drop hx)) e2
  rw [← List.take_append_drop n a, ← List.take_append_drop n b, t, d]

example : ([1, 2, 3, 4] : Bytes).length = 2 * 2 ∧ Bytes.Valid [1, 2, 3, 4] ∧ parseES [1, 2, 3, 4] = (258, 772) := by decide +kernel

/-- C116 does not hold: the length of a signature is not checked (RFC 7518, 3.4: a signature of ES256 that is not a 64-octet sequence
must be refused). A zero in front of each half changes the signature, not its acceptance. -/
theorem C116_violation_length (k : Ecdsa) (size : Nat) (m : Method) (msg a b : Bytes) (hab : a.length = b.length)
    (h : (es k size).verify msg m (a ++ b) = .ok true) : (es k size).verify msg m ((0 :: a) ++ (0 :: b)) = .ok true := by
  rw [C116_accepts] at h ⊢
  refine ⟨h.1, ?_⟩
  have e1 : (a ++ b).length / 2 = a.length := by rw [List.length_append]; omega
  have e2 : ((0 :: a) ++ (0 :: b)).length / 2 = (0 :: a).length := by simp; omega
  have h2 := h.2
  rw [e1, List.take_left, List.drop_left] at h2
  rw [e2, List.take_left, List.drop_left, beVal, beVal]
  simpa using h2

/-! ## C117 -/

/-- C117: a signature made by `RSA_sign` that fits the buffer is returned. Missing: failures, see the violations. -/
theorem C117_signature_partial (stack : Bytes) (k : Rsa) (alg : Nat) (msg s : Bytes) (h : k.sign alg msg = some s) (hl : s.length ≤ 1024) :
    signRS stack k alg msg = .ok s := by
  unfold signRS
  rw [h]
  dsimp only
  rw [if_pos hl]

/-- C117 does not hold when `RSA_sign` fails (for instance without a private key): the result is not looked at (jwtcrypto.h:54, 61, 68),
1024 uninitialised bytes of the stack are returned as signature and become part of the token. -/
theorem C117_violation_failure (stack : Bytes) (k : Rsa) (msg : Bytes) (h : k.sign 256 msg = none) :
    (rs stack k).sign msg ⟨ascii "RS256", []⟩ = .ok stack := by
  simp only [rs, if_true, signRS, h]

/-- C117 does not hold for keys of more than 8192 bits: the buffer of 1024 bytes is overrun. -/
theorem C117_violation_long (stack : Bytes) (k : Rsa) (msg s : Bytes) (h : k.sign 256 msg = some s) (hl : 1024 < s.length) :
    (rs stack k).sign msg ⟨ascii "RS256", []⟩ = .ub := by
  simp only [rs, if_true, signRS, h, if_neg (Nat.not_le.2 hl)]

example : ∃ k : Rsa, (∀ msg, k.sign 256 msg = some (List.replicate 256 7)) ∧ (List.replicate 256 7).length ≤ 1024 :=
  ⟨⟨fun _ _ => some (List.replicate 256 7), fun _ _ _ => true⟩, fun _ => rfl, by rw [List.length_replicate]; decide⟩

/-- C117, C62: only the listed algorithms are accepted, and only what `RSA_verify` accepts. -/
theorem C117_accepts (stack : Bytes) (k : Rsa) (m : Method) (msg s : Bytes) (h : (rs stack k).verify msg m s = .ok true) :
    (m.alg = ascii "RS256" ∧ k.verify 256 msg s = true) ∨ (m.alg = ascii "RS384" ∧ k.verify 384 msg s = true) ∨
    (m.alg = ascii "RS512" ∧ k.verify 512 msg s = true) := by
  simp only [rs] at h
  split at h
  · next e => exact Or.inl ⟨e, Res.ok.inj h⟩
  split at h
  · next e => exact Or.inr (Or.inl ⟨e, Res.ok.inj h⟩)
  split at h
  · next e => exact Or.inr (Or.inr ⟨e, Res.ok.inj h⟩)
  · cases h

example : (rs [] ⟨fun _ _ => none, fun n x s => n == 384 && s == x.reverse⟩).verify [1, 2] ⟨ascii "RS384", []⟩ [2, 1] = .ok true := by
  decide +kernel

/-- C63 with `JWTCrypto_RS`. -/
theorem C63_rs_partial (f : Decimal → Bytes) (tl : Nat → Bool) (htl : ∀ n < 2 ^ 64, tl n = false) (stack : Bytes) (k : Rsa) (alg : Bytes) (size : Nat)
    (halg : (alg = ascii "RS256" ∧ size = 256) ∨ (alg = ascii "RS384" ∧ size = 384) ∨ (alg = ascii "RS512" ∧ size = 512))
    (hk : ∀ x, ∃ s, k.sign size x = some s ∧ Bytes.Valid s ∧ s.length ≤ 1024 ∧ k.verify size x s = true)
    (payload : JV) (hp1 : Printable false f payload) (hp2 : Tripable { tooLong := tl } payload) (hp3 : Plain payload) :
    ∃ t, serializeJWT f payload (rs stack k) ⟨alg, []⟩ = .ok t ∧ parseJWT tl t (some (rs stack k)) none = .ok payload := by
  have wf : StrOk false alg := by
    rcases halg with ⟨rfl, -⟩ | ⟨rfl, -⟩ | ⟨rfl, -⟩ <;>
    exact ⟨.one (by decide) (.one (by decide) (.one (by decide) (.one (by decide) (.one (by decide) .nil)))), Or.inr (by decide)⟩
  have ninf : alg ≠ infSign ∧ alg ≠ 0x2D :: infSign := by rcases halg with ⟨rfl, -⟩ | ⟨rfl, -⟩ | ⟨rfl, -⟩ <;> decide
  have n1 : ascii "RS384" ≠ ascii "RS256" := by decide
  have n2 : ascii "RS512" ≠ ascii "RS256" := by decide
  have n3 : ascii "RS512" ≠ ascii "RS384" := by decide
  have key : ∀ x, ∃ s, (rs stack k).sign x ⟨alg, []⟩ = .ok s ∧ Bytes.Valid s ∧ (rs stack k).verify x ⟨alg, []⟩ s = .ok true := by
    intro x
    obtain ⟨s, a1, a2, a3, a4⟩ := hk x
    have := C117_signature_partial stack k size x s a1 a3
    refine ⟨s, ?_, a2, ?_⟩ <;>
    rcases halg with ⟨rfl, rfl⟩ | ⟨rfl, rfl⟩ | ⟨rfl, rfl⟩ <;> simp only [rs, n1, n2, n3, if_true, if_false, a4, this]
  obtain ⟨t, h1, h2, -⟩ := C63_round_trip_partial f tl htl (rs stack k) ⟨alg, []⟩ payload hp1 hp2 hp3 wf ninf
    ⟨.nil, Or.inr (by intro b hb; cases hb)⟩ ⟨by simp [infSign], by simp⟩
    (by intro x; obtain ⟨s, a, b, -⟩ := key x; exact ⟨s, a, b⟩)
    (by
      intro x s h
      obtain ⟨s', a, -, c⟩ := key x
      rw [h] at a
      rw [Res.ok.inj a]
      exact c)
  exact ⟨t, h1, h2⟩

/-- A key as the theorem wants it. -/
example (x : Bytes) : let k : Rsa := ⟨fun n x => some [n % 256, x.length % 256], fun n x s => s == [n % 256, x.length % 256]⟩
    ∃ s, k.sign 384 x = some s ∧ Bytes.Valid s ∧ s.length ≤ 1024 ∧ k.verify 384 x s = true :=
  ⟨_, rfl, by intro b hb; simp at hb; omega, by simp, by simp⟩

/-! ## C165 -/

theorem hmacKey_short {key : Bytes} (h : key.length < 2 ^ 31) : hmacKey key = some key := by
  have e : key.length % 2 ^ 32 = key.length := Nat.mod_eq_of_lt (by omega)
  unfold hmacKey
  rw [e, if_pos h, List.take_length]

/-- C165 (partial): with a `HMAC` that does not fail and a key of less than 2^31 bytes, `JWTCrypto_HS` is the one of C62, C63 and C158, whatever
was in its buffer. Missing: the cases of the violations. -/
theorem C165_same_partial (stack : Bytes) (hmac : Nat → Bytes → Bytes → Bytes) (key : Bytes) (h : key.length < 2 ^ 31) :
    hsF stack (fun n k x => some (hmac n k x)) key = hs hmac key := by
  unfold hsF hs hsBuffer
  simp only [hmacKey_short h, Option.bind_some, Option.getD_some]

/-- C165: only the listed algorithms are accepted, and only the content of the buffer after `HMAC`. -/
theorem C165_accepts (stack : Bytes) (hmac : Nat → Bytes → Bytes → Option Bytes) (key msg s : Bytes) (m : Method)
    (h : (hsF stack hmac key).verify msg m s = .ok true) :
    ∃ alg, (alg = 256 ∧ m.alg = ascii "HS256" ∨ alg = 384 ∧ m.alg = ascii "HS384" ∨ alg = 512 ∧ m.alg = ascii "HS512") ∧
      ((∃ k, k <+: key ∧ hmac alg k msg = some s) ∨ s = stack) := by
  have hb : ∀ alg, s = hsBuffer stack hmac alg key msg → (∃ k, k <+: key ∧ hmac alg k msg = some s) ∨ s = stack := by
    intro alg e
    unfold hsBuffer hmacKey at e
    split at e
    · simp only [Option.bind_some] at e
      cases hx : hmac alg (key.take (key.length % 2 ^ 32)) msg with
      | none => rw [hx] at e; exact .inr e
      | some b => rw [hx] at e; exact .inl ⟨_, List.take_prefix _ _, by rw [hx]; exact congrArg some e.symm⟩
    · exact .inr e
  simp only [hsF] at h
  split at h
  · next e => exact ⟨256, .inl ⟨rfl, e⟩, hb _ (by simpa using h)⟩
  split at h
  · next e => exact ⟨384, .inr (.inl ⟨rfl, e⟩), hb _ (by simpa using h)⟩
  split at h
  · next e => exact ⟨512, .inr (.inr ⟨rfl, e⟩), hb _ (by simpa using h)⟩
  · cases h

/-- C165 does not hold when `HMAC` fails: signing gives the uninitialised bytes of the buffer, and verification accepts exactly these
bytes as the signature of any message. -/
theorem C165_violation_failure (stack : Bytes) (hmac : Nat → Bytes → Bytes → Option Bytes) (key msg s : Bytes)
    (h : ∀ k, hmac 256 k msg = none) :
    (hsF stack hmac key).sign msg ⟨ascii "HS256", []⟩ = .ok stack ∧
    ((hsF stack hmac key).verify msg ⟨ascii "HS256", []⟩ s = .ok true ↔ s = stack) := by
  have hb : hsBuffer stack hmac 256 key msg = stack := by
    unfold hsBuffer
    cases hmacKey key with
    | none => rfl
    | some k => simp only [Option.bind_some, h, Option.getD_none]
  simp only [hsF, if_true, hb, true_and]
  constructor
  · intro e; simpa using e
  · intro e; simp [e]

/-- C165 does not hold for long keys: the length is cut to 32 bits, so keys of 4 GiB all sign as the empty key does. -/
theorem C165_violation_key (stack : Bytes) (hmac : Nat → Bytes → Bytes → Option Bytes) (key : Bytes) (h : key.length = 2 ^ 32) :
    hsF stack hmac key = hsF stack hmac [] := by
  have e : hmacKey key = hmacKey [] := by
    unfold hmacKey
    rw [h, Nat.mod_self, if_pos (by decide), List.take_zero]
    rfl
  unfold hsF hsBuffer
  rw [e]

example : ∃ key : Bytes, key.length = 2 ^ 32 := ⟨List.replicate (2 ^ 32) 1, List.length_replicate⟩
example : (hsF [9, 9] (fun _ _ _ => none) [1]).verify [5] ⟨ascii "HS256", []⟩ [9, 9] = .ok true := by decide +kernel
example : (hsF [9, 9] (fun n k x => some (n % 256 :: k ++ x)) [1]).verify [5] ⟨ascii "HS384", []⟩ [128, 1, 5] = .ok true := by decide +kernel

end Imt.Props
