import Verif.Model.JwtKeys
import Verif.Props.JwtSign
/-!
# C158, C159: preferred methods and keys of JSON web tokens
-/
namespace Imt.Props
open Imt Imt.Jwt Imt.Spec

/-! ## C158 -/

theorem preferred_alg (fam : Bytes) (size : Nat) (kid : Bytes) : (preferredOf fam size kid).kid = kid ∧
    ((preferredOf fam size kid).alg = fam ++ ascii "256" ∨ (preferredOf fam size kid).alg = fam ++ ascii "384" ∨
      (preferredOf fam size kid).alg = fam ++ ascii "512") ∧
    (size = 256 → (preferredOf fam size kid).alg = fam ++ ascii "256") ∧
    (size = 384 → (preferredOf fam size kid).alg = fam ++ ascii "384") ∧
    (size = 512 → (preferredOf fam size kid).alg = fam ++ ascii "512") := by
  unfold preferredOf
  refine ⟨rfl, ?_, ?_, ?_, ?_⟩
  · by_cases h1 : size = 384
    · simp [h1]
    · by_cases h2 : size = 512 <;> simp [h1, h2]
  all_goals rintro rfl; simp

/-- **C158 (HS).** Whatever size the object was made with and whatever key id is asked for, a token made with the preferred method is
accepted by the object and gives the payload. -/
theorem C158_hs_partial (f : Decimal → Bytes) (tl : Nat → Bool) (htl : ∀ n < 2 ^ 64, tl n = false)
    (hmac : Nat → Bytes → Bytes → Bytes) (hv : ∀ n k x, Bytes.Valid (hmac n k x)) (key : Bytes) (size : Nat) (kid : Bytes)
    (hk : StrOk false kid) (hk' : kid ≠ infSign ∧ kid ≠ 0x2D :: infSign)
    (payload : JV) (hp1 : Printable false f payload) (hp2 : Tripable { tooLong := tl } payload) (hp3 : Spec.Plain payload) :
    ∃ t, serializePreferred f payload (hs hmac key) (fun k => .ok (preferredOf (ascii "HS") size k)) kid = .ok t ∧
      parseJWT tl t (some (hs hmac key)) none = .ok payload := by
  have e1 : ascii "HS" ++ ascii "256" = ascii "HS256" := by decide
  have e2 : ascii "HS" ++ ascii "384" = ascii "HS384" := by decide
  have e3 : ascii "HS" ++ ascii "512" = ascii "HS512" := by decide
  obtain ⟨h1, h2, -⟩ := preferred_alg (ascii "HS") size kid
  rw [e1, e2, e3] at h2
  generalize hm : preferredOf (ascii "HS") size kid = m at *
  have wf : StrOk false m.alg := by
    rcases h2 with h | h | h <;> rw [h] <;>
    exact ⟨.one (by decide) (.one (by decide) (.one (by decide) (.one (by decide) (.one (by decide) .nil)))), Or.inr (by decide)⟩
  have ninf : m.alg ≠ infSign ∧ m.alg ≠ 0x2D :: infSign := by rcases h2 with h | h | h <;> rw [h] <;> decide
  have n1 : ascii "HS384" ≠ ascii "HS256" := by decide
  have n2 : ascii "HS512" ≠ ascii "HS256" := by decide
  have n3 : ascii "HS512" ≠ ascii "HS384" := by decide
  obtain ⟨t, t1, t2, -⟩ := C63_round_trip_partial f tl htl (hs hmac key) m payload hp1 hp2 hp3 wf ninf (h1 ▸ hk) (h1 ▸ hk')
    (by
      intro x
      rcases h2 with h | h | h <;> simp only [hs, h, n1, n2, n3, if_true, if_false] <;> exact ⟨_, rfl, hv _ _ _⟩)
    (by
      intro x s
      rcases h2 with h | h | h <;> simp only [hs, h, n1, n2, n3, if_true, if_false] <;> intro h' <;> cases h' <;> simp)
  exact ⟨t, by simp [serializePreferred, hm, t1], t2⟩

/-- **C158 (ES).** The same for `JWTCrypto_ES` made with the size 256 or 384, when OpenSSL signs and verifies. -/
theorem C158_es_partial (f : Decimal → Bytes) (tl : Nat → Bool) (htl : ∀ n < 2 ^ 64, tl n = false) (k : Ecdsa) (size : Nat)
    (hsize : size = 256 ∨ size = 384) (kid : Bytes) (hk : StrOk false kid) (hk' : kid ≠ infSign ∧ kid ≠ 0x2D :: infSign)
    (hsg : ∀ x, ∃ r s, k.sign size 1 x = some (r, s) ∧ r < 256 ^ (size / 8) ∧ s < 256 ^ (size / 8) ∧ k.verify size x (r, s) = true)
    (payload : JV) (hp1 : Printable false f payload) (hp2 : Tripable { tooLong := tl } payload) (hp3 : Spec.Plain payload) :
    ∃ t, serializePreferred f payload (es k size) (fun k => .ok (preferredOf (ascii "ES") size k)) kid = .ok t ∧
      parseJWT tl t (some (es k size)) none = .ok payload := by
  have e1 : ascii "ES" ++ ascii "256" = ascii "ES256" := by decide
  have e2 : ascii "ES" ++ ascii "384" = ascii "ES384" := by decide
  obtain ⟨h1, -, a1, a2, -⟩ := preferred_alg (ascii "ES") size kid
  rw [e1] at a1
  rw [e2] at a2
  generalize hm : preferredOf (ascii "ES") size kid = m at *
  have h2 : (m.alg = ascii "ES256" ∧ size = 256) ∨ (m.alg = ascii "ES384" ∧ size = 384) := by
    rcases hsize with h | h
    · exact .inl ⟨a1 h, h⟩
    · exact .inr ⟨a2 h, h⟩
  have wf : StrOk false m.alg := by
    rcases h2 with ⟨h, -⟩ | ⟨h, -⟩ <;> rw [h] <;>
    exact ⟨.one (by decide) (.one (by decide) (.one (by decide) (.one (by decide) (.one (by decide) .nil)))), Or.inr (by decide)⟩
  have ninf : m.alg ≠ infSign ∧ m.alg ≠ 0x2D :: infSign := by rcases h2 with ⟨h, -⟩ | ⟨h, -⟩ <;> rw [h] <;> decide
  have n1 : ascii "ES384" ≠ ascii "ES256" := by decide
  obtain ⟨t, t1, t2, -⟩ := C63_round_trip_partial f tl htl (es k size) m payload hp1 hp2 hp3 wf ninf (h1 ▸ hk) (h1 ▸ hk')
    (by
      intro x
      obtain ⟨r, s, a1, a2, a3, a4⟩ := hsg x
      obtain ⟨b, b1, b2, -⟩ := C115_signs k size x r s 98 1 a1 a2 a3 a4
      refine ⟨b, ?_, b2⟩
      rcases h2 with ⟨h, rfl⟩ | ⟨h, rfl⟩ <;> simp only [es, h, n1, true_and, false_and, if_true, if_false] <;> exact b1)
    (by
      intro x s h
      refine C115_checked k size m x s ?_ h
      rcases h2 with h | h
      · exact Or.inl h
      · exact Or.inr (Or.inl h))
  exact ⟨t, by simp [serializePreferred, hm, t1], t2⟩

/-- A container with two keys. -/
def twoKeys (hmac : Nat → Bytes → Bytes → Bytes) : Container :=
  ⟨[⟨ascii "a", some (ascii "HS256", 1)⟩, ⟨ascii "b", some (ascii "HS384", 2)⟩], ⟨ascii "HS256", ascii "a"⟩,
    fun i => hs hmac [i]⟩

/-- **C158 (container).** For a key id registered in the container: the preferred method names the key id and the algorithm preferred by
the object used for it, and if that object accepts what it signs by that method, a token for that key id is accepted by the container
and gives the payload. -/
theorem C158_container_partial (f : Decimal → Bytes) (tl : Nat → Bool) (htl : ∀ n < 2 ^ 64, tl n = false) (c : Container)
    (hsort : SortedItems c.items) (hn : ∀ i ∈ c.items, i.obj ≠ none) (kid : Bytes) (hne : kid ≠ []) (hin : ∃ i ∈ c.items, i.kid = kid)
    (hkid : StrOk false kid) (hkid' : kid ≠ infSign ∧ kid ≠ 0x2D :: infSign)
    (hobj : ∀ alg i, ⟨kid, some (alg, i)⟩ ∈ c.items → StrOk false alg ∧ (alg ≠ infSign ∧ alg ≠ 0x2D :: infSign) ∧
      (∀ x, ∃ s, (c.objs i).sign x ⟨alg, kid⟩ = .ok s ∧ Bytes.Valid s) ∧
      ∀ x s, (c.objs i).sign x ⟨alg, kid⟩ = .ok s → (c.objs i).verify x ⟨alg, kid⟩ s = .ok true)
    (payload : JV) (hp1 : Printable false f payload) (hp2 : Tripable { tooLong := tl } payload) (hp3 : Spec.Plain payload) :
    ∃ t alg i, ⟨kid, some (alg, i)⟩ ∈ c.items ∧ c.preferredMethod kid = .ok ⟨alg, kid⟩ ∧
      serializePreferred f payload c.crypto c.preferredMethod kid = .ok t ∧ parseJWT tl t (some c.crypto) none = .ok payload := by
  rcases C85_select_partial c.items hsort hn kid with ⟨-, h⟩ | ⟨o, h1, h2, -⟩
  · obtain ⟨i, hi, hk⟩ := hin
    exact absurd hk (h i hi)
  obtain ⟨alg, i⟩ := o
  obtain ⟨a1, a2, a3, a4⟩ := hobj alg i h2
  have hpm : c.preferredMethod kid = .ok ⟨alg, kid⟩ := by
    unfold Container.preferredMethod
    rw [if_neg hne, h1]
    rfl
  have hs : ∀ x, c.crypto.sign x ⟨alg, kid⟩ = (c.objs i).sign x ⟨alg, kid⟩ := by
    intro x
    simp [Container.crypto, h1]
  have hv : ∀ x s, c.crypto.verify x ⟨alg, kid⟩ s = (c.objs i).verify x ⟨alg, kid⟩ s := by
    intro x s
    simp [Container.crypto, h1]
  obtain ⟨t, t1, t2, -⟩ := C63_round_trip_partial f tl htl c.crypto ⟨alg, kid⟩ payload hp1 hp2 hp3 a1 a2 hkid hkid'
    (fun x => by rw [hs x]; exact a3 x) (fun x s h => by rw [hv x s]; exact a4 x s (by rw [← hs x]; exact h))
  exact ⟨t, alg, i, h2, hpm, by simp [serializePreferred, hpm, t1], t2⟩

/-- The hypotheses about the objects hold for a container of two HS keys. -/
example (hmac : Nat → Bytes → Bytes → Bytes) (hv : ∀ n k x, Bytes.Valid (hmac n k x)) : SortedItems (twoKeys hmac).items ∧
    (∀ i ∈ (twoKeys hmac).items, i.obj ≠ none) ∧ (∃ i ∈ (twoKeys hmac).items, i.kid = ascii "b") ∧
    (∀ alg i, ⟨ascii "b", some (alg, i)⟩ ∈ (twoKeys hmac).items → StrOk false alg ∧ (alg ≠ infSign ∧ alg ≠ 0x2D :: infSign) ∧
      (∀ x, ∃ s, ((twoKeys hmac).objs i).sign x ⟨alg, ascii "b"⟩ = .ok s ∧ Bytes.Valid s) ∧
      ∀ x s, ((twoKeys hmac).objs i).sign x ⟨alg, ascii "b"⟩ = .ok s → ((twoKeys hmac).objs i).verify x ⟨alg, ascii "b"⟩ s = .ok true) := by
  have n1 : ascii "HS384" ≠ ascii "HS256" := by decide
  refine ⟨by show SortedItems [_, _]; unfold SortedItems; decide, by show ∀ i ∈ [_, _], _; decide, ⟨_, by unfold twoKeys; exact List.mem_cons_of_mem _ List.mem_cons_self, rfl⟩, ?_⟩
  intro alg i h
  have hb : ascii "b" ≠ ascii "a" := by decide
  have : alg = ascii "HS384" := by
    simp only [twoKeys, List.mem_cons, Item.mk.injEq, Option.some.injEq, Prod.mk.injEq, List.not_mem_nil, or_false] at h
    rcases h with h | h
    · exact absurd h.1 hb
    · exact h.2.1
  subst this
  refine ⟨⟨.one (by decide) (.one (by decide) (.one (by decide) (.one (by decide) (.one (by decide) .nil)))), Or.inr (by decide)⟩, by decide, ?_, ?_⟩
  · intro x
    simp only [twoKeys, hs, n1, if_true, if_false]
    exact ⟨_, rfl, hv _ _ _⟩
  · intro x s
    simp only [twoKeys, hs, n1, if_true, if_false]
    intro h'
    cases h'
    simp

/-- **C158 (unknown key id).** For a key id that is not registered, and for the empty one, the preferred method of the container is used:
the token carries its key id. -/
theorem C158_unknown (c : Container) (hsort : SortedItems c.items) (kid : Bytes) (h : kid = [] ∨ ∀ i ∈ c.items, i.kid ≠ kid) :
    c.preferredMethod kid = .ok c.preferred := by
  unfold Container.preferredMethod
  rcases h with rfl | h
  · simp
  · split
    · rfl
    · have : select c.items kid = .ok none := by
        unfold select
        rcases select_spec c.items hsort kid with ⟨h1, -⟩ | ⟨i, h1, h2, -⟩ | ⟨i, -, h2, h3, -⟩
        · rw [h1]
        · rw [h1]; dsimp only; rw [if_neg h2]
        · exact absurd h2 (h i h3)
      rw [this]
      rfl

/-- A token with an empty signature. -/
theorem unsigned_token (f : Decimal → Bytes) (tl : Nat → Bool) (htl : ∀ n < 2 ^ 64, tl n = false) (c : Crypto) (m : Method)
    (hs : ∀ x, c.sign x m = .ok []) (hc : ∀ x s, c.verify x m s = .ok false)
    (ha : StrOk false m.alg) (ha' : m.alg ≠ infSign ∧ m.alg ≠ 0x2D :: infSign)
    (hk : StrOk false m.kid) (hk' : m.kid ≠ infSign ∧ m.kid ≠ 0x2D :: infSign)
    (payload : JV) (hp1 : Printable false f payload) (hp2 : Tripable { tooLong := tl } payload) (hp3 : Spec.Plain payload) :
    ∃ t, serializeJWT f payload c m = .ok (t ++ [0x2E]) ∧ parseJWT tl (t ++ [0x2E]) none none = .ok payload ∧
      parseJWT tl (t ++ [0x2E]) (some c) none = .ok .undef := by
  -- the token does not depend on `verify`, so the round trip with an object that accepts the method applies
  obtain ⟨t, t1, t2, -, t3, t4⟩ := C63_round_trip_partial f tl htl ⟨c.sign, fun _ m' _ => .ok (decide (m' = m))⟩ m payload hp1 hp2 hp3 ha ha' hk hk'
    (fun x => ⟨[], hs x, by intro b hb; cases hb⟩) (fun _ _ _ => by simp)
  obtain ⟨hh, e1, h⟩ := bind_okE (show serializeRaw f (header m) payload ⟨c.sign, fun _ m' _ => .ok (decide (m' = m))⟩ m = .ok t from t1)
  obtain ⟨bb, e2, h⟩ := bind_okE h
  obtain ⟨eh, e3, h⟩ := bind_okE h
  obtain ⟨eb, e4, h⟩ := bind_okE h
  obtain ⟨sg, e5, h⟩ := bind_okE h
  obtain ⟨es, e6, h⟩ := bind_okE h
  have hsg : sg = [] := by
    have : c.sign (eh ++ [0x2E] ++ eb) m = .ok sg := e5
    rw [hs] at this
    cases this
    rfl
  subst hsg
  have hes : es = [] := by
    have : Base64.encodeUrl [] = .ok [] := by decide +kernel
    rw [this] at e6
    cases e6
    rfl
  subst hes
  have ht : t = (eh ++ [0x2E] ++ eb) ++ [0x2E] := by
    have : (pure ((eh ++ [0x2E] ++ eb) ++ [0x2E] ++ []) : Res Bytes) = .ok t := h
    rw [List.append_nil] at this
    cases this
    rfl
  refine ⟨eh ++ [0x2E] ++ eb, ?_, by rw [← ht]; exact t3, ?_⟩
  · unfold serializeJWT serializeRaw
    simp only [e1, e2, e3, e4, Res.bind_ok, hs, e6]
    rw [List.append_nil]
    rfl
  · rw [← ht]
    obtain ⟨hb, h, b, g, P⟩ := parts_exist t
    have hu : payload ≠ .undef := by rintro rfl; exact hp3
    obtain ⟨sign, hd, hdr, bd, a1, a2, a3, a4, a5, a6⟩ := C62_verified tl P _ payload t2 hu
    have hm : (⟨memberStr hdr (ascii "alg"), memberStr hdr (ascii "kid")⟩ : Method) = m := by simpa using a4
    rw [parseJWT_parts tl P]
    simp only [parseParts, a5, a6, a1, a2, a3, Res.bind_ok, hm, hc]
    rfl

/-- **C158 does not hold for `JWTCrypto_ES` made with another size** (for instance 521, the size of the curve of ES512): the preferred
method is ES256, which the object does not support. A token with an empty signature is returned without an exception, and the object
itself refuses it. -/
theorem C158_violation_size (f : Decimal → Bytes) (tl : Nat → Bool) (htl : ∀ n < 2 ^ 64, tl n = false) (k : Ecdsa) (size : Nat)
    (hsize : size ≠ 256 ∧ size ≠ 384 ∧ size ≠ 512) (kid : Bytes) (hk : StrOk false kid) (hk' : kid ≠ infSign ∧ kid ≠ 0x2D :: infSign)
    (payload : JV) (hp1 : Printable false f payload) (hp2 : Tripable { tooLong := tl } payload) (hp3 : Spec.Plain payload) :
    ∃ t, serializePreferred f payload (es k size) (fun k => .ok (preferredOf (ascii "ES") size k)) kid = .ok (t ++ [0x2E]) ∧
      parseJWT tl (t ++ [0x2E]) none none = .ok payload ∧ parseJWT tl (t ++ [0x2E]) (some (es k size)) none = .ok .undef := by
  obtain ⟨s1, s2, s3⟩ := hsize
  have hm : preferredOf (ascii "ES") size kid = ⟨ascii "ES256", kid⟩ := by
    unfold preferredOf
    rw [if_neg s2, if_neg s3]
    rfl
  obtain ⟨t, h1, h2⟩ := unsigned_token f tl htl (es k size) ⟨ascii "ES256", kid⟩ (fun x => by simp [es, s1, s2, s3])
    (fun x s => by simp [es, s1, s2, s3])
    (show StrOk false (ascii "ES256") from
      ⟨.one (by decide) (.one (by decide) (.one (by decide) (.one (by decide) (.one (by decide) .nil)))), Or.inr (by decide)⟩)
    (show ascii "ES256" ≠ infSign ∧ ascii "ES256" ≠ 0x2D :: infSign by decide)
    hk hk' payload hp1 hp2 hp3
  exact ⟨t, by simp [serializePreferred, hm, h1], h2⟩

/-- **C158 does not hold for a container whose preferred key id is not registered** (the constructor does not check it): tokens with an
empty signature are returned, which the container refuses. -/
theorem C158_violation_container (f : Decimal → Bytes) (tl : Nat → Bool) (htl : ∀ n < 2 ^ 64, tl n = false) (c : Container)
    (hsort : SortedItems c.items) (h : ∀ i ∈ c.items, i.kid ≠ c.preferred.kid) (kid : Bytes)
    (hkid : kid = [] ∨ ∀ i ∈ c.items, i.kid ≠ kid)
    (ha : StrOk false c.preferred.alg) (ha' : c.preferred.alg ≠ infSign ∧ c.preferred.alg ≠ 0x2D :: infSign)
    (hk : StrOk false c.preferred.kid) (hk' : c.preferred.kid ≠ infSign ∧ c.preferred.kid ≠ 0x2D :: infSign)
    (payload : JV) (hp1 : Printable false f payload) (hp2 : Tripable { tooLong := tl } payload) (hp3 : Spec.Plain payload) :
    ∃ t, serializePreferred f payload c.crypto c.preferredMethod kid = .ok (t ++ [0x2E]) ∧
      parseJWT tl (t ++ [0x2E]) none none = .ok payload ∧ parseJWT tl (t ++ [0x2E]) (some c.crypto) none = .ok .undef := by
  have hpm := C158_unknown c hsort kid hkid
  have hsel : select c.items c.preferred.kid = .ok none := by
    unfold select
    rcases select_spec c.items hsort c.preferred.kid with ⟨h1, -⟩ | ⟨i, h1, h2, -⟩ | ⟨i, -, h2, h3, -⟩
    · rw [h1]
    · rw [h1]; dsimp only; rw [if_neg h2]
    · exact absurd h2 (h i h3)
  obtain ⟨t, h1, h2⟩ := unsigned_token f tl htl c.crypto c.preferred (fun x => by simp [Container.crypto, hsel])
    (fun x s => by simp [Container.crypto, hsel]) ha ha' hk hk' payload hp1 hp2 hp3
  exact ⟨t, by simp [serializePreferred, hpm, h1], h2⟩

/-- The payload `{"a":1}` and the key id `k` meet the hypotheses. -/
example : StrOk false (ascii "k") ∧ (ascii "k" ≠ infSign ∧ ascii "k" ≠ 0x2D :: infSign) ∧ ∀ f tl,
    Printable false f (.obj [(ascii "a", .num (.uint 1))]) ∧ Tripable { tooLong := tl } (.obj [(ascii "a", .num (.uint 1))]) ∧
    Spec.Plain (.obj [(ascii "a", .num (.uint 1))]) := by
  refine ⟨⟨.one (by decide) .nil, Or.inr (by decide)⟩, by decide, fun f tl => ⟨?_, ?_, ?_⟩⟩
  · simp only [Printable, PrintableM]
    exact ⟨⟨.one (by decide) .nil, Or.inr (by decide)⟩, trivial, trivial⟩
  · simp [Tripable, TripableM, StrictSorted]
  · simp [Spec.Plain, PlainM]

/-! ## C159 -/

/-- **C159 (public keys).** The text of a public key, imported with the size of the key, is a key with the same point and without a
private number; nothing is left behind. The texts of points are assumed to be read back by OpenSSL. -/
theorem C159_public (o : Ossl) (k : EKey) (hc : k.curve = 256 ∨ k.curve = 384 ∨ k.curve = 512)
    (hv : Bytes.Valid (o.i2o k.curve true k.pub)) (ho : o.o2i k.curve (o.i2o k.curve true k.pub) = some (k.pub, true)) :
    ∃ t, exportPublic o k = .ok (t, { k with compressed := true }) ∧
      importPublic o k.curve t = .ok (some ⟨k.curve, none, k.pub, true⟩, []) := by
  obtain ⟨t, h1, h2, -⟩ := enc_dec _ hv
  refine ⟨t, by simp [exportPublic, h1], ?_⟩
  unfold importPublic initKey
  rw [h2, if_pos hc]
  simp [ho]

/-- **C159 (public keys).** A text that OpenSSL does not read, or a size other than 256, 384, 512, gives a null pointer, and nothing is
left behind. -/
theorem C159_public_refused (o : Ossl) (size : Nat) (t b : Bytes) (hb : Base64.decodeUrl t = .ok b)
    (h : (size ≠ 256 ∧ size ≠ 384 ∧ size ≠ 512) ∨ o.o2i size b = none) : importPublic o size t = .ok (none, []) := by
  unfold importPublic initKey
  rw [hb]
  simp only [Res.bind_ok]
  by_cases hc : size = 256 ∨ size = 384 ∨ size = 512
  · rw [if_pos hc]
    rcases h with h | h
    · omega
    · simp [h]
  · rw [if_neg hc]
    rfl

/-- **C159 (private keys).** The key gets the number written by the bytes, whatever their count and value, and the point belonging
to it. -/
theorem C159_private (o : Ossl) (size : Nat) (hc : size = 256 ∨ size = 384 ∨ size = 512) (b : Bytes) (p : Nat)
    (hp : o.mul size (beVal b) = some p) : ∃ rest, importPrivate o size b = .ok (some ⟨size, some (beVal b), p, false⟩, rest) := by
  unfold importPrivate initKey
  rw [if_pos hc]
  simp only [bin2bn_eq, hp]
  exact ⟨_, rfl⟩

/-- **C159 does not hold for the memory of private keys**: each successful import leaves a copy of the private number and of the point
which nobody releases; a refused one leaves nothing. -/
theorem C159_violation_leak (o : Ossl) (size : Nat) (hc : size = 256 ∨ size = 384 ∨ size = 512) (b : Bytes) :
    (∃ k, importPrivate o size b = .ok (some k, [.number, .point])) ∨ importPrivate o size b = .ok (none, []) := by
  unfold importPrivate initKey
  rw [if_pos hc]
  simp only
  cases o.mul size (bin2bn b) with
  | none => exact .inr rfl
  | some p => exact .inl ⟨_, rfl⟩

/-- **C159 does not hold for other sizes**: importing a private key reads through a null pointer, where a public one is refused. -/
theorem C159_violation_size (o : Ossl) (size : Nat) (h : size ≠ 256 ∧ size ≠ 384 ∧ size ≠ 512) (b : Bytes) :
    importPrivate o size b = .ub := by
  unfold importPrivate initKey
  rw [if_neg (by omega)]

/-- **C159 (texts of private keys).** A text is imported as the bytes it stands for, except that a text of no bytes (also one of a
single character) is refused; the text of bytes stands for them. -/
theorem C159_private_text (o : Ossl) (size : Nat) :
    (∀ t b, Base64.decodeUrl t = .ok b → importPrivateText o size t = if b = [] then .ok (none, []) else importPrivate o size b) ∧
    (∀ b, Bytes.Valid b → ∃ t, Base64.encodeUrl b = .ok t ∧ Base64.decodeUrl t = .ok b) := by
  refine ⟨fun t b h => ?_, fun b hv => ?_⟩
  · unfold importPrivateText
    rw [h]
    simp only [Res.bind_ok]
    split <;> rfl
  · obtain ⟨t, h1, h2, -⟩ := enc_dec b hv
    exact ⟨t, h1, h2⟩

example : Base64.decodeUrl (ascii "A") = .ok [] ∧ Base64.decodeUrl (ascii "AQA") = .ok [1, 0] := by decide +kernel

/-- **C159 does not hold for exports**: `exportPublicKey` (a `const` member) changes the form in which the key is written, so that
`exportPublicKeyPEM` gives another text after it than before. -/
theorem C159_violation_form (o : Ossl) (k : EKey) (hv : Bytes.Valid (o.i2o k.curve true k.pub))
    (h : o.pem { k with compressed := true } ≠ o.pem k) :
    ∃ t k', exportPublic o k = .ok (t, k') ∧ exportPublicPEM o k' ≠ exportPublicPEM o k := by
  obtain ⟨t, h1, -, -⟩ := enc_dec _ hv
  exact ⟨t, { k with compressed := true }, by simp [exportPublic, h1], h⟩

example : ∃ (o : Ossl) (k : EKey), Bytes.Valid (o.i2o k.curve true k.pub) ∧ o.pem { k with compressed := true } ≠ o.pem k :=
  ⟨⟨fun _ _ => none, fun _ _ _ => [1, 2], fun _ _ => none, fun k => if k.compressed then [2] else [4]⟩, ⟨256, none, 5, false⟩,
    by decide, by decide⟩

example : ∃ (o : Ossl) (k : EKey), k.curve = 256 ∧ Bytes.Valid (o.i2o k.curve true k.pub) ∧
    o.o2i k.curve (o.i2o k.curve true k.pub) = some (k.pub, true) ∧ o.mul 256 (beVal [1, 0]) = some 256 :=
  ⟨⟨fun _ n => some n, fun _ f p => [if f then 2 else 4, p % 256], fun _ b => some (b.getD 1 0, b.getD 0 0 == 2), fun _ => []⟩,
    ⟨256, none, 7, false⟩, rfl, by decide, by decide, by decide⟩

end Imt.Props
