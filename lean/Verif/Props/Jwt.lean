import Verif.Model.Jwt
import Verif.Props.BinEnc
import Verif.Props.Serializer
import Verif.Props.ObjCore
import Verif.Lemmas.ObjB
/-!
# C62–C65, C84, C85: JSON web tokens
-/
namespace Imt.Props
open Imt Imt.Jwt Imt.Spec

/-! ### C62 -/

/-- Text without a dot. -/
def NoDot (s : Bytes) : Prop := ∀ c ∈ s, c ≠ 0x2E

/-- The parts of a token: signed text, header, body, signature. Missing parts are empty, everything from the third dot on is ignored. -/
inductive Parts : (token signed header body signature : Bytes) → Prop where
  | header {h : Bytes} : NoDot h → Parts h h h [] []
  | body {h b : Bytes} : NoDot h → NoDot b → Parts (h ++ 0x2E :: b) (h ++ 0x2E :: b) h b []
  | full {h b s : Bytes} : NoDot h → NoDot b → NoDot s → Parts (h ++ 0x2E :: (b ++ 0x2E :: s)) (h ++ 0x2E :: b) h b s
  | more {h b s r : Bytes} : NoDot h → NoDot b → NoDot s →
      Parts (h ++ 0x2E :: (b ++ 0x2E :: (s ++ 0x2E :: r))) (h ++ 0x2E :: b) h b s

theorem cut_dot : (s : Bytes) → NoDot s ∨ ∃ p r, s = p ++ 0x2E :: r ∧ NoDot p
  | [] => Or.inl (by intro c h; cases h)
  | c :: s => by
    by_cases hc : c = 0x2E
    · exact Or.inr ⟨[], s, by rw [hc]; rfl, by intro c h; cases h⟩
    · rcases cut_dot s with h | ⟨p, r, h1, h2⟩
      · left
        intro x hx
        rcases List.mem_cons.1 hx with rfl | hx
        · exact hc
        · exact h x hx
      · right
        refine ⟨c :: p, r, by rw [h1]; rfl, ?_⟩
        intro x hx
        rcases List.mem_cons.1 hx with rfl | hx
        · exact hc
        · exact h2 x hx

/-- Every text is a token with parts. -/
theorem parts_exist (s : Bytes) : ∃ hb h b g, Parts s hb h b g := by
  rcases cut_dot s with h | ⟨h, r, rfl, hh⟩
  · exact ⟨_, _, _, _, .header h⟩
  rcases cut_dot r with h' | ⟨b, r', rfl, hb⟩
  · exact ⟨_, _, _, _, .body hh h'⟩
  rcases cut_dot r' with h' | ⟨g, r'', rfl, hg⟩
  · exact ⟨_, _, _, _, .full hh hb h'⟩
  · exact ⟨_, _, _, _, .more hh hb hg⟩

theorem takeWhile_noDot {s r : Bytes} (h : NoDot s) : (s ++ 0x2E :: r).takeWhile (· != 0x2E) = s := by
  rw [List.takeWhile_append_of_pos (by intro c hc; simpa using h c hc)]
  simp
theorem takeWhile_noDot' {s : Bytes} (h : NoDot s) : s.takeWhile (· != 0x2E) = s := by
  rw [List.takeWhile_eq_self_iff]; intro c hc; simpa using h c hc

theorem nextPart_dot (x p z : Bytes) (h : NoDot p) : nextPart (x ++ (p ++ 0x2E :: z)) x.length =
    (x.length, p.length, x.length + p.length + 1) := by
  unfold nextPart
  rw [List.drop_left, takeWhile_noDot h]
  simp only [List.length_append, List.length_cons]
  rw [if_pos (by omega)]
theorem nextPart_end (x p : Bytes) (h : NoDot p) : nextPart (x ++ p) x.length = (x.length, p.length, (x ++ p).length) := by
  unfold nextPart
  rw [List.drop_left, takeWhile_noDot' h]
  simp only [List.length_append]
  rw [if_neg (by omega)]
theorem sub_mid (x p z : Bytes) : sub (x ++ (p ++ z)) x.length p.length = p := by
  unfold sub; rw [List.drop_left, List.take_left]

/-- The views used by `parseJWT`. -/
def views (t : Bytes) : Bytes × Bytes × Bytes × Bytes :=
  let (p1, l1, n1) := nextPart t 0
  let (p2, l2, n2) := nextPart t n1
  let (p3, l3, _) := nextPart t n2
  (sub t p1 ((p2 - p1) + l2), sub t p1 l1, sub t p2 l2, sub t p3 l3)

theorem noDot_nil : NoDot [] := by intro c h; cases h

theorem nextPart_over (s : Bytes) : nextPart s s.length = (s.length, 0, s.length) := by
  have := nextPart_end s [] noDot_nil
  simpa using this

theorem sub_zero_len (s : Bytes) (n : Nat) : sub s n 0 = [] := by simp [sub]
theorem sub_all (s : Bytes) : sub s 0 s.length = s := by simp [sub]

theorem views_eq {t hb h b g : Bytes} (hp : Parts t hb h b g) : views t = (hb, h, b, g) := by
  cases hp with
  | header hh =>
    have e1 := nextPart_end [] t hh
    simp only [List.nil_append, List.length_nil] at e1
    simp only [views, e1, nextPart_over, sub_zero_len, Nat.sub_zero, Nat.add_zero, sub_all]
  | body hh hb' =>
    have e1 := nextPart_dot [] h b hh
    simp only [List.nil_append, List.length_nil, Nat.zero_add] at e1
    have e2 := nextPart_end (h ++ [0x2E]) b hb'
    simp only [List.append_assoc, List.singleton_append, List.length_append, List.length_singleton] at e2
    have e3 := nextPart_over (h ++ 0x2E :: b)
    have s2 := sub_mid (h ++ [0x2E]) b []
    simp only [List.append_assoc, List.singleton_append, List.length_append, List.length_singleton, List.append_nil] at s2
    have s1 := sub_mid [] h (0x2E :: b)
    simp only [List.nil_append, List.length_nil] at s1
    have s0 := sub_all (h ++ 0x2E :: b)
    have l0 : (h ++ 0x2E :: b).length = h.length + (b.length + 1) := by simp
    rw [l0] at e3 s0
    have l1 : h.length + 1 + b.length = h.length + (b.length + 1) := by omega
    simp only [List.length_cons] at e2
    simp only [views, e1, e2, e3, sub_zero_len, Nat.sub_zero, l1, s0, s1, s2]
  | @full _ _ s hh hb' hs =>
    have e1 := nextPart_dot [] h (b ++ 0x2E :: g) hh
    simp only [List.nil_append, List.length_nil, Nat.zero_add] at e1
    have e2 := nextPart_dot (h ++ [0x2E]) b g hb'
    simp only [List.append_assoc, List.singleton_append, List.length_append, List.length_singleton] at e2
    have e3 := nextPart_end (h ++ 0x2E :: (b ++ [0x2E])) g hs
    simp only [List.append_assoc, List.cons_append, List.nil_append, List.length_append, List.length_cons, List.length_nil] at e3
    have s1 := sub_mid [] h (0x2E :: (b ++ 0x2E :: g))
    simp only [List.nil_append, List.length_nil] at s1
    have s2 := sub_mid (h ++ [0x2E]) b (0x2E :: g)
    simp only [List.append_assoc, List.singleton_append, List.length_append, List.length_singleton] at s2
    have s3 := sub_mid (h ++ 0x2E :: (b ++ [0x2E])) g []
    simp only [List.append_assoc, List.cons_append, List.nil_append, List.length_append, List.length_cons, List.length_nil, List.append_nil] at s3
    have s0 := sub_mid [] (h ++ 0x2E :: b) (0x2E :: g)
    simp only [List.append_assoc, List.cons_append, List.nil_append, List.length_append, List.length_cons, List.length_nil] at s0
    have l1 : h.length + (b.length + 1) + 1 = h.length + (b.length + (0 + 1) + 1) := by omega
    have l2 : h.length + 1 + b.length = h.length + (b.length + 1) := by omega
    simp only [views, e1, e2, l1, e3, Nat.sub_zero, l2, s0, s1, s2, s3]
  | @more _ _ s r hh hb' hs =>
    have e1 := nextPart_dot [] h (b ++ 0x2E :: (g ++ 0x2E :: r)) hh
    simp only [List.nil_append, List.length_nil, Nat.zero_add] at e1
    have e2 := nextPart_dot (h ++ [0x2E]) b (g ++ 0x2E :: r) hb'
    simp only [List.append_assoc, List.singleton_append, List.length_append, List.length_singleton] at e2
    have e3 := nextPart_dot (h ++ 0x2E :: (b ++ [0x2E])) g r hs
    simp only [List.append_assoc, List.cons_append, List.nil_append, List.length_append, List.length_cons, List.length_nil] at e3
    have s1 := sub_mid [] h (0x2E :: (b ++ 0x2E :: (g ++ 0x2E :: r)))
    simp only [List.nil_append, List.length_nil] at s1
    have s2 := sub_mid (h ++ [0x2E]) b (0x2E :: (g ++ 0x2E :: r))
    simp only [List.append_assoc, List.singleton_append, List.length_append, List.length_singleton] at s2
    have s3 := sub_mid (h ++ 0x2E :: (b ++ [0x2E])) g (0x2E :: r)
    simp only [List.append_assoc, List.cons_append, List.nil_append, List.length_append, List.length_cons, List.length_nil] at s3
    have s0 := sub_mid [] (h ++ 0x2E :: b) (0x2E :: (g ++ 0x2E :: r))
    simp only [List.append_assoc, List.cons_append, List.nil_append, List.length_append, List.length_cons, List.length_nil] at s0
    have l1 : h.length + (b.length + 1) + 1 = h.length + (b.length + (0 + 1) + 1) := by omega
    have l2 : h.length + 1 + b.length = h.length + (b.length + 1) := by omega
    simp only [views, e1, e2, l1, e3, Nat.sub_zero, l2, s0, s1, s2, s3]

/-- `parseJWT` in terms of the parts. -/
def parseParts (tl : Nat → Bool) (hb h b g : Bytes) (crypto : Option Crypto) (force : Option Method) : Res JV :=
  catchAll (match crypto, force with
    | some c, some m => do
      let sign ← Base64.decodeUrl g
      let ok ← c.verify hb m sign
      if !ok then pure .undef
      else do
        let b ← Base64.decodeUrl b
        Parser.fromString tl b
    | some c, none => do
      let b ← Base64.decodeUrl b
      let body ← Parser.fromString tl b
      let sign ← Base64.decodeUrl g
      let h ← Base64.decodeUrl h
      let hdr ← Parser.fromString tl h
      let ok ← c.verify hb ⟨memberStr hdr (ascii "alg"), memberStr hdr (ascii "kid")⟩ sign
      if !ok then pure .undef else pure body
    | none, _ => do
      let b ← Base64.decodeUrl b
      Parser.fromString tl b)

theorem parseJWT_parts (tl : Nat → Bool) {t hb h b g : Bytes} (hp : Parts t hb h b g) (crypto : Option Crypto) (force : Option Method) :
    parseJWT tl t crypto force = parseParts tl hb h b g crypto force := by
  have e := views_eq hp
  have : parseJWT tl t crypto force = parseParts tl (views t).1 (views t).2.1 (views t).2.2.1 (views t).2.2.2 crypto force := rfl
  rw [this, e]

theorem bind_okE {α β : Type} {x : Res α} {f : α → Res β} {b : β} (h : (x >>= f) = .ok b) : ∃ a, x = .ok a ∧ f a = .ok b := by
  cases x with
  | ok a => exact ⟨a, rfl, h⟩
  | _ => cases h

theorem catch_okE {x : Res JV} {v : JV} (h : catchAll x = .ok v) (hv : v ≠ .undef) : x = .ok v := by
  cases x with
  | ok a => exact h
  | err => cases h; exact absurd rfl hv
  | _ => cases h

/-- **C62.** A defined result means that the signature was verified: over exactly the signed text of the token (header, dot, body), with
the presented signature, and the method from the header of the token; the result is the content of the body. For every token,
every cryptography. -/
theorem C62_verified (tl : Nat → Bool) {t hb h b g : Bytes} (hp : Parts t hb h b g) (c : Crypto) (v : JV)
    (hr : parseJWT tl t (some c) none = .ok v) (hv : v ≠ .undef) :
    ∃ sign hd hdr bd, Base64.decodeUrl g = .ok sign ∧ Base64.decodeUrl h = .ok hd ∧ Parser.fromString tl hd = .ok hdr ∧
      c.verify hb ⟨memberStr hdr (ascii "alg"), memberStr hdr (ascii "kid")⟩ sign = .ok true ∧
      Base64.decodeUrl b = .ok bd ∧ Parser.fromString tl bd = .ok v := by
  rw [parseJWT_parts tl hp] at hr
  have hr := catch_okE hr hv
  dsimp only at hr
  obtain ⟨bd, h1, hr⟩ := bind_okE hr
  obtain ⟨body, h2, hr⟩ := bind_okE hr
  obtain ⟨sign, h3, hr⟩ := bind_okE hr
  obtain ⟨hd, h4, hr⟩ := bind_okE hr
  obtain ⟨hdr, h5, hr⟩ := bind_okE hr
  obtain ⟨ok, h6, hr⟩ := bind_okE hr
  cases ok with
  | false => cases hr; exact absurd rfl hv
  | true => cases hr; exact ⟨sign, hd, hdr, bd, h3, h4, h5, h6, h1, h2⟩

/-- **C62.** The same with a forced method, which then is the one used. -/
theorem C62_verified_forced (tl : Nat → Bool) {t hb h b g : Bytes} (hp : Parts t hb h b g) (c : Crypto) (m : Method) (v : JV)
    (hr : parseJWT tl t (some c) (some m) = .ok v) (hv : v ≠ .undef) :
    ∃ sign bd, Base64.decodeUrl g = .ok sign ∧ c.verify hb m sign = .ok true ∧
      Base64.decodeUrl b = .ok bd ∧ Parser.fromString tl bd = .ok v := by
  rw [parseJWT_parts tl hp] at hr
  have hr := catch_okE hr hv
  dsimp only at hr
  obtain ⟨sign, h1, hr⟩ := bind_okE hr
  obtain ⟨ok, h2, hr⟩ := bind_okE hr
  cases ok with
  | false => cases hr; exact absurd rfl hv
  | true =>
    obtain ⟨bd, h3, hr⟩ := bind_okE hr
    exact ⟨sign, bd, h1, h2, h3, hr⟩

/-- **C62.** `parseJWT` never throws, whatever bytes it is given (when the cryptography returns or throws). -/
theorem C62_total (tl : Nat → Bool) (t : Bytes) (hvalid : Bytes.Valid t) (c : Option Crypto) (m : Option Method)
    (hc : ∀ k, c = some k → ∀ x y z, k.verify x y z = .err ∨ ∃ b, k.verify x y z = .ok b) : ∃ v, parseJWT tl t c m = .ok v := by
  obtain ⟨hb, h, b, g, hp⟩ := parts_exist t
  have hval : Bytes.Valid h ∧ Bytes.Valid b ∧ Bytes.Valid g := by
    cases hp with
    | header _ => exact ⟨hvalid, fun x hx => (List.not_mem_nil hx).elim, fun x hx => (List.not_mem_nil hx).elim⟩
    | body _ _ => exact ⟨fun x hx => hvalid x (by simp [hx]), fun x hx => hvalid x (by simp [hx]), fun x hx => (List.not_mem_nil hx).elim⟩
    | full _ _ _ => exact ⟨fun x hx => hvalid x (by simp [hx]), fun x hx => hvalid x (by simp [hx]), fun x hx => hvalid x (by simp [hx])⟩
    | more _ _ _ => exact ⟨fun x hx => hvalid x (by simp [hx]), fun x hx => hvalid x (by simp [hx]), fun x hx => hvalid x (by simp [hx])⟩
  obtain ⟨hd, d1, -, -⟩ := C69_base64url_total h hval.1
  obtain ⟨bd, d2, -, -⟩ := C69_base64url_total b hval.2.1
  obtain ⟨gd, d3, -, -⟩ := C69_base64url_total g hval.2.2
  rw [parseJWT_parts tl hp]
  unfold parseParts
  have fs : ∀ s, Parser.fromString tl s = .err ∨ ∃ v, Parser.fromString tl s = .ok v := C06_fromString tl
  have ce : ∃ v, catchAll (.err : Res JV) = .ok v := ⟨_, rfl⟩
  have co : ∀ v, ∃ w, catchAll (.ok v : Res JV) = .ok w := fun v => ⟨v, rfl⟩
  cases c with
  | none =>
    simp only [d2, Res.bind_ok]
    rcases fs bd with e | ⟨v, e⟩ <;> rw [e]
    · exact ce
    · exact co v
  | some k =>
    have hk := hc k rfl
    cases m with
    | some m =>
      simp only [d2, d3, Res.bind_ok]
      rcases hk hb m gd with e | ⟨x, e⟩ <;> rw [e]
      · exact ce
      · simp only [Res.bind_ok]
        cases x with
        | false => exact co _
        | true =>
          rcases fs bd with e | ⟨v, e⟩ <;> simp only [e]
          · exact ce
          · exact co v
    | none =>
      simp only [d1, d2, d3, Res.bind_ok]
      rcases fs bd with e | ⟨v, e⟩ <;> rw [e]
      · exact ce
      · simp only [Res.bind_ok]
        rcases fs hd with e | ⟨hdr, e⟩ <;> rw [e]
        · exact ce
        · simp only [Res.bind_ok]
          rcases hk hb ⟨memberStr hdr (ascii "alg"), memberStr hdr (ascii "kid")⟩ gd with e | ⟨x, e⟩ <;> rw [e]
          · exact ce
          · simp only [Res.bind_ok]
            cases x
            · exact co _
            · exact co _

/-- Toy cryptography for the examples: the signature is the text backwards. -/
def toy : Crypto := ⟨fun x _ => .ok x.reverse, fun x _ s => .ok (s == x.reverse)⟩

example : Parts (ascii "e30.e30.c2ln.x") (ascii "e30.e30") (ascii "e30") (ascii "e30") (ascii "c2ln") :=
  .more (h := ascii "e30") (b := ascii "e30") (s := ascii "c2ln") (r := ascii "x")
    (by unfold NoDot; decide) (by unfold NoDot; decide) (by unfold NoDot; decide)
/-- `MDNlLjAzZQ` is base64url of `03e.03e`. -/
example : parseJWT (fun _ => false) (ascii "e30.e30.MDNlLjAzZQ") (some toy) none = .ok (.obj []) := by decide +kernel
example : parseJWT (fun _ => false) (ascii "e30.e30.MDNlLjAzZA") (some toy) none = .ok .undef := by decide +kernel

/-! ### C63 -/

mutual
theorem plain_asc (f : Decimal → Bytes) (cfg : Parser.Cfg) : (v : JV) → Plain v → Tripable cfg v → NumsAsc f v
  | .undef, h, _ => by simp [Plain] at h
  | .null, _, _ => by rw [NumsAsc.eq_def]; trivial
  | .bool _, _, _ => by rw [NumsAsc.eq_def]; trivial
  | .num (.uint _), _, _ => by rw [NumsAsc.eq_def]; trivial
  | .num (.int _), _, _ => by rw [NumsAsc.eq_def]; trivial
  | .num (.dbl _), _, h => by simp [Tripable] at h
  | .num (.inf _), _, _ => by rw [NumsAsc.eq_def]; trivial
  | .num (.prec _ _), h, _ => by simp [Plain] at h
  | .str _, _, _ => by rw [NumsAsc.eq_def]; trivial
  | .arr l, h, h' => by rw [Plain] at h; rw [Tripable] at h'; rw [NumsAsc]; exact plain_ascL f cfg l h h'
  | .obj l, h, h' => by rw [Plain] at h; rw [Tripable] at h'; rw [NumsAsc]; exact plain_ascM f cfg l h h'.2
theorem plain_ascL (f : Decimal → Bytes) (cfg : Parser.Cfg) : (l : List JV) → PlainL l → TripableL cfg l → NumsAscL f l
  | [], _, _ => by rw [NumsAscL]; trivial
  | v :: l, h, h' => by
    rw [PlainL] at h; rw [TripableL] at h'; rw [NumsAscL]
    exact ⟨plain_asc f cfg v h.1 h'.1, plain_ascL f cfg l h.2 h'.2⟩
theorem plain_ascM (f : Decimal → Bytes) (cfg : Parser.Cfg) : (l : List (Bytes × JV)) → PlainM l → TripableM cfg l → NumsAscM f l
  | [], _, _ => by rw [NumsAscM]; trivial
  | (k, v) :: l, h, h' => by
    rw [PlainM] at h; rw [TripableM] at h'; rw [NumsAscM]
    exact ⟨plain_asc f cfg v h.1 h'.1, plain_ascM f cfg l h.2 h'.2⟩
end

/-- Text of a value in the scope of the round trip, and reading it back. -/
theorem text_of (f : Decimal → Bytes) (tl : Nat → Bool) (htl : ∀ n < 2 ^ 64, tl n = false) (v : JV) (h1 : Printable false f v)
    (h2 : Tripable { tooLong := tl } v) (h3 : Plain v) :
    ∃ t, Ser.stringify false f v = .ok t ∧ Bytes.Valid t ∧ Parser.fromString tl t = .ok v := by
  obtain ⟨t, v', e1, e2, -, e3⟩ := C02_round_trip_partial f { tooLong := tl } htl v h1 h2 [] (by intro _ _ h; cases h)
  have e4 := e3 rfl h3
  subst e4
  refine ⟨t, e1, ?_, ?_⟩
  · intro b hb
    have := (C03_ascii f v' (plain_asc f _ v' h3 h2) t e1 b hb).2
    omega
  · unfold Parser.fromString
    rw [List.append_nil] at e2
    rw [e2]; rfl

theorem enc_dec (d : Bytes) (hv : Bytes.Valid d) : ∃ t, Base64.encodeUrl d = .ok t ∧ Base64.decodeUrl t = .ok d ∧ NoDot t := by
  have h := C15_round_trip d hv
  obtain ⟨t, h1, h2⟩ := bind_okE h
  refine ⟨t, h1, h2, ?_⟩
  intro c hc
  have := (C15_alphabet d t hv h1).2 c hc
  omega

theorem token_parts {h b g : Bytes} (h1 : NoDot h) (h2 : NoDot b) (h3 : NoDot g) :
    Parts ((h ++ [0x2E] ++ b) ++ [0x2E] ++ g) (h ++ [0x2E] ++ b) h b g := by
  have := Parts.full h1 h2 h3
  simpa using this

/-- Round trip with an arbitrary header. -/
theorem round_trip_raw (f : Decimal → Bytes) (tl : Nat → Bool) (htl : ∀ n < 2 ^ 64, tl n = false) (c : Crypto) (m : Method)
    (hdr payload : JV)
    (hh1 : Printable false f hdr) (hh2 : Tripable { tooLong := tl } hdr) (hh3 : Plain hdr)
    (hp1 : Printable false f payload) (hp2 : Tripable { tooLong := tl } payload) (hp3 : Plain payload)
    (hs : ∀ x, ∃ s, c.sign x m = .ok s ∧ Bytes.Valid s)
    (hc : ∀ x s, c.sign x m = .ok s → c.verify x m s = .ok true)
    (ha : memberStr hdr (ascii "alg") = m.alg) (hk : memberStr hdr (ascii "kid") = m.kid) :
    ∃ t, serializeRaw f hdr payload c m = .ok t ∧ parseJWT tl t (some c) none = .ok payload ∧
      parseJWT tl t (some c) (some m) = .ok payload ∧ parseJWT tl t none none = .ok payload ∧ parseJWTHdr tl t = .ok hdr := by
  obtain ⟨th, e1, e2, e3⟩ := text_of f tl htl hdr hh1 hh2 hh3
  obtain ⟨tp, e4, e5, e6⟩ := text_of f tl htl payload hp1 hp2 hp3
  obtain ⟨eh, g1, g2, g3⟩ := enc_dec th e2
  obtain ⟨ep, g4, g5, g6⟩ := enc_dec tp e5
  obtain ⟨s, s1, s2⟩ := hs (eh ++ [0x2E] ++ ep)
  obtain ⟨es, g7, g8, g9⟩ := enc_dec s s2
  have hv := hc _ _ s1
  have P := token_parts g3 g6 g9
  refine ⟨(eh ++ [0x2E] ++ ep) ++ [0x2E] ++ es, ?_, ?_, ?_, ?_, ?_⟩
  · unfold serializeRaw
    simp only [e1, e4, g1, g4, Res.bind_ok, s1, g7]; rfl
  · rw [parseJWT_parts tl P]
    simp only [parseParts, g5, g8, g2, e6, e3, Res.bind_ok, ha, hk]
    cases m
    rw [hv]; rfl
  · rw [parseJWT_parts tl P]
    simp only [parseParts, g5, g8, e6, Res.bind_ok, hv]; rfl
  · rw [parseJWT_parts tl P]
    simp only [parseParts, g5, e6, Res.bind_ok]; rfl
  · have e := congrArg (fun x => x.2.1) (views_eq P)
    have : parseJWTHdr tl ((eh ++ [0x2E] ++ ep) ++ [0x2E] ++ es) =
        catchAll (do let h ← Base64.decodeUrl (views ((eh ++ [0x2E] ++ ep) ++ [0x2E] ++ es)).2.1; Parser.fromString tl h) := rfl
    rw [this, e]
    simp only [g2, Res.bind_ok, e3]; rfl

theorem header_eq (m : Method) : header m = .obj (if m.kid = [] then [(ascii "alg", .str m.alg)]
    else [(ascii "alg", .str m.alg), (ascii "kid", .str m.kid)]) := by
  have hcmp : cmpBytes (ascii "alg") (ascii "kid") = .lt := by decide
  have hsorted : ∀ x y : JV, StrictSorted [(ascii "alg", x), (ascii "kid", y)] := by
    intro x y
    simp only [StrictSorted, List.pairwise_cons, List.mem_singleton, forall_eq, List.not_mem_nil, false_imp_iff, implies_true,
      List.Pairwise.nil, and_true]
    exact hcmp
  unfold header
  congr 1
  set L : List (Bytes × JV) := [(ascii "alg", .str m.alg), (ascii "kid", if m.kid = [] then .undef else .str m.kid)] with hL
  obtain ⟨hi, hrec, hb, hd⟩ := ObjB.foldl_set_spec ObjB.defd L (s := (ObjB.new : ObjB.OB JV)) ObjB.inv_new
  obtain ⟨_, _, _, _, _, h6, h7⟩ := ObjB.commit_spec ObjB.defd hi
  refine Obj.eq_of_lookup_eq h6 ?_ ?_
  · split
    · simp [StrictSorted]
    · exact hsorted _ _
  · intro k
    have e1 : (ObjB.record ObjB.defd ObjB.new L).base = [] := hb
    have e2 : (ObjB.record ObjB.defd ObjB.new L).baseDiff = false := hd
    have e3 : ObjB.recorded (ObjB.record ObjB.defd ObjB.new L) k = lookup L k := by
      have h8 := hrec k
      unfold ObjB.record
      rw [h8]
      have h9 : ObjB.recorded (ObjB.new : ObjB.OB JV) k = none := by simp [ObjB.new, ObjB.recorded, lastVal, lookup]
      rw [h9, Option.or_none]
      refine (Obj.lookup_eq_lastVal_nodup ?_ k).symm
      rw [hL]
      show ([ascii "alg", ascii "kid"] : List Bytes).Nodup
      decide
    have h7' := h7 k
    change lookup (ObjB.commit ObjB.defd (ObjB.record ObjB.defd ObjB.new L)).1 k =
      ObjB.comb ObjB.defd ObjB.defaultMerge (ObjB.record ObjB.defd ObjB.new L).baseDiff
        (lookup (ObjB.record ObjB.defd ObjB.new L).base k) (ObjB.recorded (ObjB.record ObjB.defd ObjB.new L) k) at h7'
    rw [h7', e1, e2, e3, hL]
    by_cases hk : m.kid = []
    · rw [if_pos hk, if_pos hk]
      by_cases k1 : ascii "alg" = k
      · subst k1; simp [lookup, ObjB.comb, ObjB.defd]
      · by_cases k2 : ascii "kid" = k
        · subst k2; simp [lookup, ObjB.comb, ObjB.defd, k1]
        · simp [lookup, ObjB.comb, k1, k2]
    · rw [if_neg hk, if_neg hk]
      by_cases k1 : ascii "alg" = k
      · subst k1; simp [lookup, ObjB.comb, ObjB.defd]
      · by_cases k2 : ascii "kid" = k
        · subst k2; simp [lookup, ObjB.comb, ObjB.defd, k1]
        · simp [lookup, ObjB.comb, k1, k2]

/-- **C63 (partial).** A token of `serializeJWT` is accepted by `parseJWT` and yields the payload; with the method from the header as well
as with the forced method. Any cryptography whose `verify` accepts what `sign` returns. Missing: payloads outside of the scope of
the text round trip (C02: floating point numbers, characters above U+FFFF, the texts of infinities), algorithm and key names likewise. -/
theorem C63_round_trip_partial (f : Decimal → Bytes) (tl : Nat → Bool) (htl : ∀ n < 2 ^ 64, tl n = false) (c : Crypto) (m : Method)
    (payload : JV) (hp1 : Printable false f payload) (hp2 : Tripable { tooLong := tl } payload) (hp3 : Plain payload)
    (ha : StrOk false m.alg) (ha' : m.alg ≠ infSign ∧ m.alg ≠ 0x2D :: infSign)
    (hk : StrOk false m.kid) (hk' : m.kid ≠ infSign ∧ m.kid ≠ 0x2D :: infSign)
    (hs : ∀ x, ∃ s, c.sign x m = .ok s ∧ Bytes.Valid s)
    (hc : ∀ x s, c.sign x m = .ok s → c.verify x m s = .ok true) :
    ∃ t, serializeJWT f payload c m = .ok t ∧ parseJWT tl t (some c) none = .ok payload ∧
      parseJWT tl t (some c) (some m) = .ok payload ∧ parseJWT tl t none none = .ok payload ∧ parseJWTHdr tl t = .ok (header m) := by
  have hcmp : cmpBytes (ascii "alg") (ascii "kid") = .lt := by decide
  have hwf : StrOk false (ascii "alg") ∧ StrOk false (ascii "kid") := by
    constructor
    · refine ⟨.one (by decide) (.one (by decide) (.one (by decide) .nil)), Or.inr (by decide)⟩
    · refine ⟨.one (by decide) (.one (by decide) (.one (by decide) .nil)), Or.inr (by decide)⟩
  have hsort : ∀ l : List (Bytes × JV), l = (if m.kid = [] then [(ascii "alg", .str m.alg)]
      else [(ascii "alg", .str m.alg), (ascii "kid", .str m.kid)]) → StrictSorted l := by
    rintro l rfl
    split
    · simp [StrictSorted]
    · simp only [StrictSorted, List.pairwise_cons, List.mem_singleton, forall_eq, List.not_mem_nil, false_imp_iff, implies_true,
        List.Pairwise.nil, and_true]
      exact hcmp
  unfold serializeJWT
  refine round_trip_raw f tl htl c m (header m) payload ?_ ?_ ?_ hp1 hp2 hp3 hs hc ?_ ?_
  · rw [header_eq, Printable]
    split
    · simp only [PrintableM, Printable]; exact ⟨hwf.1, ha, trivial⟩
    · simp only [PrintableM, Printable]; exact ⟨hwf.1, ha, hwf.2, hk, trivial⟩
  · rw [header_eq, Tripable]
    refine ⟨hsort _ rfl, ?_⟩
    split
    · simp only [TripableM, Tripable]; exact ⟨ha', trivial⟩
    · simp only [TripableM, Tripable]; exact ⟨ha', hk', trivial⟩
  · rw [header_eq, Plain]
    split
    · simp only [PlainM, Plain]; trivial
    · simp only [PlainM, Plain]; trivial
  · rw [header_eq]
    simp only [memberStr]
    rw [C24_member _ (hsort _ rfl)]
    have : lookup (if m.kid = [] then [(ascii "alg", JV.str m.alg)]
        else [(ascii "alg", JV.str m.alg), (ascii "kid", JV.str m.kid)]) (ascii "alg") = some (.str m.alg) := by
      split <;> simp [lookup]
    rw [this]
  · rw [header_eq]
    simp only [memberStr]
    rw [C24_member _ (hsort _ rfl)]
    by_cases hz : m.kid = []
    · rw [if_pos hz, hz]
      have : lookup [(ascii "alg", JV.str m.alg)] (ascii "kid") = none := by
        have : ascii "alg" ≠ ascii "kid" := by decide
        simp [lookup, this]
      rw [this]
    · rw [if_neg hz]
      have : lookup [(ascii "alg", JV.str m.alg), (ascii "kid", JV.str m.kid)] (ascii "kid") = some (.str m.kid) := by
        have : ascii "alg" ≠ ascii "kid" := by decide
        simp [lookup, this]
      rw [this]

/-- **C63** with `JWTCrypto_HS`: a token signed with a key is accepted with the key, for each of the three algorithms. -/
theorem C63_hs_partial (f : Decimal → Bytes) (tl : Nat → Bool) (htl : ∀ n < 2 ^ 64, tl n = false)
    (hmac : Nat → Bytes → Bytes → Bytes) (hv : ∀ n k x, Bytes.Valid (hmac n k x)) (key : Bytes) (alg : Bytes)
    (halg : alg = ascii "HS256" ∨ alg = ascii "HS384" ∨ alg = ascii "HS512")
    (payload : JV) (hp1 : Printable false f payload) (hp2 : Tripable { tooLong := tl } payload) (hp3 : Plain payload) :
    ∃ t, serializeJWT f payload (hs hmac key) ⟨alg, []⟩ = .ok t ∧ parseJWT tl t (some (hs hmac key)) none = .ok payload := by
  have wf : StrOk false alg := by
    rcases halg with rfl | rfl | rfl <;>
    exact ⟨.one (by decide) (.one (by decide) (.one (by decide) (.one (by decide) (.one (by decide) .nil)))), Or.inr (by decide)⟩
  have ninf : alg ≠ infSign ∧ alg ≠ 0x2D :: infSign := by rcases halg with rfl | rfl | rfl <;> decide
  have n1 : ascii "HS384" ≠ ascii "HS256" := by decide
  have n2 : ascii "HS512" ≠ ascii "HS256" := by decide
  have n3 : ascii "HS512" ≠ ascii "HS384" := by decide
  obtain ⟨t, h1, h2, -⟩ := C63_round_trip_partial f tl htl (hs hmac key) ⟨alg, []⟩ payload hp1 hp2 hp3 wf ninf
    ⟨.nil, Or.inr (by intro b hb; cases hb)⟩ ⟨by simp [infSign], by simp⟩
    (by
      intro x
      rcases halg with rfl | rfl | rfl <;> simp only [hs, n1, n2, n3, if_true, if_false] <;> exact ⟨_, rfl, hv _ _ _⟩)
    (by
      intro x s
      rcases halg with rfl | rfl | rfl <;> simp only [hs, n1, n2, n3, if_true, if_false] <;> intro h <;> cases h <;> simp)
  exact ⟨t, h1, h2⟩

/-- **C63 does not hold for characters above U+FFFF**: a token for `{"name":"😀"}` is accepted with another name (U+F600).
The text is escaped with four digits, see C02. -/
theorem C63_violation_astral :
    ∃ t, serializeJWT (fun _ => []) (.obj [(ascii "name", .str [0xF0, 0x9F, 0x98, 0x80])]) toy ⟨ascii "toy", []⟩ = .ok t ∧
      parseJWT (fun _ => false) t (some toy) none = .ok (.obj [(ascii "name", .str [0xEF, 0x98, 0x80])]) := by
  refine ⟨_, rfl, ?_⟩
  decide +kernel

/-- **C63 does not hold for the text "∞"**: it comes back as a number. -/
theorem C63_violation_infinity :
    ∃ t, serializeJWT (fun _ => []) (.obj [(ascii "sub", .str infSign)]) toy ⟨ascii "toy", []⟩ = .ok t ∧
      parseJWT (fun _ => false) t (some toy) none = .ok (.obj [(ascii "sub", .num (.inf false))]) := by
  refine ⟨_, rfl, ?_⟩
  decide +kernel

/-- **C63 does not hold for the most negative integer**: no token is made, printing it is undefined behaviour; for each
cryptography. -/
theorem C63_violation_min (f : Decimal → Bytes) (c : Crypto) (m : Method)
    (hm : ∃ h, Ser.stringify false f (header m) = .ok h) :
    serializeJWT f (.obj [(ascii "n", .num (.int (-2 ^ 63)))]) c m = .ub := by
  obtain ⟨h, e⟩ := hm
  have e2 : Ser.stringify false f (.obj [(ascii "n", .num (.int (-2 ^ 63)))]) = .ub := rfl
  unfold serializeJWT serializeRaw
  rw [e, e2]
  rfl

example (f : Decimal → Bytes) : ∃ h, Ser.stringify false f (header ⟨ascii "HS256", []⟩) = .ok h := ⟨_, rfl⟩

/-- **C62/C63** with `JWTCrypto_HS`: only the listed algorithms are accepted, in particular not "none", and only with the whole HMAC. -/
theorem C62_hs (hmac : Nat → Bytes → Bytes → Bytes) (key x s : Bytes) (m : Method) (h : (hs hmac key).verify x m s = .ok true) :
    (m.alg = ascii "HS256" ∧ s = hmac 256 key x) ∨ (m.alg = ascii "HS384" ∧ s = hmac 384 key x) ∨
    (m.alg = ascii "HS512" ∧ s = hmac 512 key x) := by
  simp only [hs] at h
  split at h
  · rename_i e; exact Or.inl ⟨e, by simpa using h⟩
  split at h
  · rename_i e; exact Or.inr (Or.inl ⟨e, by simpa using h⟩)
  split at h
  · rename_i e; exact Or.inr (Or.inr ⟨e, by simpa using h⟩)
  · cases h

example (f : Decimal → Bytes) : let p : JV := .obj [(ascii "exp", .num (.uint 5)), (ascii "sub", .str (ascii "me"))]
    Printable false f p ∧ Tripable {} p ∧ Plain p := by
  intro p
  have w : StrOk false (ascii "exp") ∧ StrOk false (ascii "sub") ∧ StrOk false (ascii "me") :=
    ⟨⟨.one (by decide) (.one (by decide) (.one (by decide) .nil)), Or.inr (by decide)⟩,
     ⟨.one (by decide) (.one (by decide) (.one (by decide) .nil)), Or.inr (by decide)⟩,
     ⟨.one (by decide) (.one (by decide) .nil), Or.inr (by decide)⟩⟩
  refine ⟨?_, ?_, ?_⟩
  · simp only [p, Printable, PrintableM]; exact ⟨w.1, trivial, w.2.1, w.2.2, trivial⟩
  · simp only [p, Tripable, TripableM, StrictSorted]; decide
  · simp only [p, Plain, PlainM]; trivial

/-! ### C64 -/

/-- Bound of the token under a name: none, if it is missing or not a number. -/
def bound (v : JV) (name : Bytes) : Option JNum :=
  match v with
  | .obj l => match lookup l name with
    | some (.num n) => some n
    | _ => none
  | _ => none

/-- Members sorted, as in all objects of the library. -/
def TopSorted : JV → Prop
  | .obj l => StrictSorted l
  | _ => True

theorem member_bound (v : JV) (hs : TopSorted v) (name : Bytes) :
    (∃ n, bound v name = some n ∧ member v name = .num n) ∨ (bound v name = none ∧ ∀ n, member v name ≠ .num n) := by
  cases v with
  | obj l =>
    simp only [bound, member]
    rw [C24_member l hs]
    cases lookup l name with
    | none => right; exact ⟨rfl, by intro n h; cases h⟩
    | some x => cases x <;> first | (left; exact ⟨_, rfl, rfl⟩) | (right; exact ⟨rfl, by intro n h; cases h⟩)
  | _ => right; exact ⟨rfl, by intro n h; cases h⟩

/-- **C64 (partial).** For a time not before the epoch and bounds that are unsigned integers (or missing): the token is returned exactly
inside of its time window. Missing: negative bounds (violation below), times before 1970, floating point bounds. -/
theorem C64_window_partial (conv : JNum → Res Nat) (v : JV) (hs : TopSorted v) (now : Nat) (hnow : now < 2 ^ 64)
    (he : ∀ n, bound v (ascii "exp") = some n → ∃ k, n = .uint k) (hn : ∀ n, bound v (ascii "nbf") = some n → ∃ k, n = .uint k) :
    ((∀ k, bound v (ascii "exp") = some (.uint k) → now ≤ k) ∧ (∀ k, bound v (ascii "nbf") = some (.uint k) → k ≤ now) →
      checkJWTTime conv v now = .ok v) ∧
    (¬ ((∀ k, bound v (ascii "exp") = some (.uint k) → now ≤ k) ∧ (∀ k, bound v (ascii "nbf") = some (.uint k) → k ≤ now)) →
      checkJWTTime conv v now = .ok .undef) := by
  have ht : ((now : Int) % 2 ^ 64).toNat = now := by
    have : ((now : Int) % 2 ^ 64) = (now : Int) := Int.emod_eq_of_lt (by omega) (by exact_mod_cast hnow)
    rw [this]; rfl
  have key : ∀ name (p : Nat → Bool), (∀ n, bound v name = some n → ∃ k, n = .uint k) →
      numTest conv (member v name) p = .ok (match bound v name with | some (.uint k) => p k | _ => false) := by
    intro name p h
    rcases member_bound v hs name with ⟨n, h1, h2⟩ | ⟨h1, h2⟩
    · obtain ⟨k, rfl⟩ := h n h1
      rw [h1, h2]; rfl
    · rw [h1]
      cases hm : member v name <;> first | rfl | exact absurd hm (h2 _)
  unfold checkJWTTime
  simp only [ht]
  rw [key (ascii "exp") (fun e => decide (e < now)) he, Res.bind_ok]
  rw [key (ascii "nbf") (fun e => decide (e > now)) hn]
  cases h1 : bound v (ascii "exp") with
  | none =>
    simp only [Bool.false_eq_true, if_false, Res.bind_ok]
    cases h2 : bound v (ascii "nbf") with
    | none => simp [pure, Pure.pure]
    | some n =>
      obtain ⟨k, rfl⟩ := hn n h2
      by_cases hk : k > now
      · have : ¬ k ≤ now := by omega
        simp [hk, this, pure, Pure.pure]
      · have : k ≤ now := by omega
        simp [hk, this, pure, Pure.pure]
  | some n =>
    obtain ⟨e, rfl⟩ := he n h1
    by_cases hlt : e < now
    · have : ¬ now ≤ e := by omega
      simp [hlt, this, pure, Pure.pure]
    · have hle : now ≤ e := by omega
      simp only [decide_eq_false hlt, Bool.false_eq_true, if_false, Res.bind_ok]
      cases h2 : bound v (ascii "nbf") with
      | none => simp [hle, pure, Pure.pure]
      | some n =>
        obtain ⟨k, rfl⟩ := hn n h2
        by_cases hk : k > now
        · have : ¬ k ≤ now := by omega
          simp [hk, this, hle, pure, Pure.pure]
        · have : k ≤ now := by omega
          simp [hk, this, hle, pure, Pure.pure]

example : checkJWTTime (fun _ => .ub) (.obj [(ascii "exp", .num (.uint 20)), (ascii "nbf", .num (.uint 10))]) 20 =
    .ok (.obj [(ascii "exp", .num (.uint 20)), (ascii "nbf", .num (.uint 10))]) := by decide +kernel
example : checkJWTTime (fun _ => .ub) (.obj [(ascii "exp", .num (.uint 20)), (ascii "nbf", .num (.uint 10))]) 21 = .ok .undef := by
  decide +kernel

/-- **C64, violation.** A token that expired before 1970 (`exp` negative) is accepted now: `exp` becomes a huge unsigned number. -/
theorem C64_violation_negative_exp :
    checkJWTTime (fun _ => .ub) (.obj [(ascii "exp", .num (.int (-1)))]) 1700000000 = .ok (.obj [(ascii "exp", .num (.int (-1)))]) := by
  decide +kernel
/-- **C64, violation.** A token valid since before 1970 (`nbf` negative) is refused. -/
theorem C64_violation_negative_nbf :
    checkJWTTime (fun _ => .ub) (.obj [(ascii "nbf", .num (.int (-1)))]) 1700000000 = .ok .undef := by
  decide +kernel

/-! ### C65, C84: cache -/

/-- Operations on the cache. -/
inductive COp where
  | store (t : Bytes) (v : JV)
  | clear

/-- Run operations; tokens shorter than ten characters are undefined. -/
def crun (c : Cache) : List COp → Res Cache
  | [] => .ok c
  | .store t v :: ops => do let c ← c.store t v; crun c ops
  | .clear :: ops => crun c.clear ops

/-- All tokens have at least ten characters. -/
def LongToks (ops : List COp) : Prop := ∀ t v, COp.store t v ∈ ops → 10 ≤ t.length

theorem find_mem {l : List (Bytes × JV)} {t : Bytes} {v : JV} (h : Jwt.find l t = some v) : (t, v) ∈ l := by
  unfold Jwt.find at h
  cases e : l.find? (fun e => e.1 == t) with
  | none => rw [e] at h; cases h
  | some x =>
    rw [e] at h
    have h1 := List.mem_of_find?_eq_some e
    have h2 := List.find?_some e
    simp only [beq_iff_eq] at h2
    simp only [Option.map_some, Option.some.injEq] at h
    obtain ⟨a, b⟩ := x
    cases h; cases h2; exact h1

/-- First map after `emplace`. -/
def ins (c : Cache) (t : Bytes) (v : JV) : List (Bytes × JV) := if (Jwt.find c.c1 t).isSome then c.c1 else (t, v) :: c.c1

theorem store_eq (c : Cache) (t : Bytes) (v : JV) (h : 10 ≤ t.length) : c.store t v =
    .ok (if (ins c t v).length ≥ c.limit then { c with c1 := [], c2 := ins c t v } else { c with c1 := ins c t v }) := by
  simp only [Cache.store, hashOk, h, decide_true, if_true]
  by_cases h : (ins c t v).length ≥ c.limit
  · rw [if_pos h]; exact if_pos h
  · rw [if_neg h]; exact if_neg h

theorem ins_length (c : Cache) (t : Bytes) (v : JV) : (ins c t v).length ≤ c.c1.length + 1 := by
  unfold ins; split <;> simp

/-- Stores since the last `clear`. -/
def live (past : List (Bytes × JV)) : List COp → List (Bytes × JV)
  | [] => past
  | .store t v :: ops => live ((t, v) :: past) ops
  | .clear :: ops => live [] ops

theorem crun_sound (ops : List COp) (hl : LongToks ops) : ∀ (c : Cache) (past : List (Bytes × JV)),
    (∀ e ∈ c.c1, e ∈ past) → (∀ e ∈ c.c2, e ∈ past) → c.c1.length < max c.limit 1 → c.c2.length ≤ max c.limit 1 →
    ∃ c', crun c ops = .ok c' ∧ c'.limit = c.limit ∧ (∀ e ∈ c'.c1, e ∈ live past ops) ∧ (∀ e ∈ c'.c2, e ∈ live past ops) ∧
      c'.c1.length < max c.limit 1 ∧ c'.c2.length ≤ max c.limit 1 := by
  induction ops with
  | nil => intro c past h1 h2 h3 h4; exact ⟨c, rfl, rfl, h1, h2, h3, h4⟩
  | cons o ops ih =>
    have hl' : LongToks ops := fun t v h => hl t v (List.mem_cons_of_mem _ h)
    intro c past h1 h2 h3 h4
    cases o with
    | clear =>
      obtain ⟨c', e1, e2, e3, e4, e5, e6⟩ := ih hl' c.clear [] (by intro e h; cases h) (by intro e h; cases h)
        (by simp [Cache.clear]; omega) (by simp [Cache.clear])
      exact ⟨c', e1, e2, e3, e4, e5, e6⟩
    | store t v =>
      have ht : 10 ≤ t.length := hl t v List.mem_cons_self
      have hm : ∀ e ∈ ins c t v, e ∈ (t, v) :: past := by
        intro e he
        unfold ins at he
        split at he
        · exact List.mem_cons_of_mem _ (h1 e he)
        · rcases List.mem_cons.1 he with rfl | he
          · exact List.mem_cons_self
          · exact List.mem_cons_of_mem _ (h1 e he)
      have hlen : (ins c t v).length ≤ max c.limit 1 := by
        have := ins_length c t v
        omega
      simp only [crun, store_eq c t v ht, Res.bind_ok, live]
      split
      · obtain ⟨c', e1, e2, e3, e4, e5, e6⟩ := ih hl' { c with c1 := [], c2 := ins c t v }
          ((t, v) :: past) (by intro e h; cases h) hm (by simp; omega) hlen
        exact ⟨c', e1, e2, e3, e4, e5, e6⟩
      · rename_i hge
        obtain ⟨c', e1, e2, e3, e4, e5, e6⟩ := ih hl' { c with c1 := ins c t v }
          ((t, v) :: past) hm (fun e h => List.mem_cons_of_mem _ (h2 e h)) (by dsimp only; omega) h4
        exact ⟨c', e1, e2, e3, e4, e5, e6⟩

/-- **C65.** After any sequence of operations `get` returns for a token only content stored under exactly that token since the last
`clear`; the cache holds at most `2*limit` elements (two for limit zero). -/
theorem C65_sound (limit : Nat) (ops : List COp) (hl : LongToks ops) : ∃ c, crun (Cache.mk' limit) ops = .ok c ∧
    c.c1.length + c.c2.length ≤ 2 * max limit 1 ∧
    ∀ t v, c.get t = .ok (some v) → (t, v) ∈ live [] ops := by
  obtain ⟨c, e1, e2, e3, e4, e5, e6⟩ := crun_sound ops hl (Cache.mk' limit) [] (by intro e h; cases h) (by intro e h; cases h)
    (by simp [Cache.mk']; omega) (by simp [Cache.mk'])
  refine ⟨c, e1, ?_, ?_⟩
  · have : (Cache.mk' limit).limit = limit := rfl
    rw [this] at e5 e6
    omega
  · intro t v h
    unfold Cache.get at h
    split at h
    · simp only [Res.ok.injEq] at h
      cases h1 : Jwt.find c.c1 t with
      | some w => rw [h1] at h; cases h; exact e3 _ (find_mem h1)
      | none => rw [h1] at h; exact e4 _ (find_mem h)
    · cases h

theorem find_isSome_of_mem {l : List (Bytes × JV)} {t : Bytes} {v : JV} (h : (t, v) ∈ l) : (Jwt.find l t).isSome = true := by
  unfold Jwt.find
  rw [Option.isSome_map, List.find?_isSome]
  exact ⟨(t, v), h, by simp⟩

/-- Tokens of stores only. -/
def storesOf (l : List (Bytes × JV)) : List COp := l.map (fun e => .store e.1 e.2)

/-- While the token is in the first map, or in the second one with enough room in the first, further stores do not lose it. -/
theorem keeps (t : Bytes) : ∀ (l : List (Bytes × JV)) (c : Cache), (∀ e ∈ l, 10 ≤ e.1.length) →
    ((Jwt.find c.c1 t).isSome = true ∧ l.length < c.limit ∨
     (Jwt.find c.c2 t).isSome = true ∧ c.c1.length + l.length < c.limit) →
    ∃ c', crun c (storesOf l) = .ok c' ∧ ((Jwt.find c'.c1 t).or (Jwt.find c'.c2 t)).isSome = true
  | [], c, _, h => by
    refine ⟨c, rfl, ?_⟩
    rcases h with ⟨h, _⟩ | ⟨h, _⟩
    · cases e : Jwt.find c.c1 t <;> simp_all
    · cases e : Jwt.find c.c1 t <;> simp_all
  | (u, w) :: l, c, hl, h => by
    have hu : 10 ≤ u.length := hl (u, w) List.mem_cons_self
    have hl' : ∀ e ∈ l, 10 ≤ e.1.length := fun e he => hl e (List.mem_cons_of_mem _ he)
    have hlen := ins_length c u w
    have hfind : (Jwt.find c.c1 t).isSome = true →
        (Jwt.find (ins c u w) t).isSome = true := by
      intro hf
      obtain ⟨x, hx⟩ := Option.isSome_iff_exists.1 hf
      have := find_mem hx
      apply find_isSome_of_mem (v := x)
      unfold ins
      split
      · exact this
      · exact List.mem_cons_of_mem _ this
    show ∃ c', (do let c ← c.store u w; crun c (storesOf l)) = .ok c' ∧ _
    rw [store_eq c u w hu, Res.bind_ok]
    simp only [List.length_cons] at h
    split
    · rename_i hge
      apply keeps t l _ hl'
      rcases h with ⟨h1, h2⟩ | ⟨h1, h2⟩
      · right; exact ⟨hfind h1, by simp only [List.length_nil]; omega⟩
      · omega
    · apply keeps t l _ hl'
      rcases h with ⟨h1, h2⟩ | ⟨h1, h2⟩
      · left; exact ⟨hfind h1, by dsimp only; omega⟩
      · right; exact ⟨h1, by dsimp only; omega⟩

/-- **C65.** A token is found while less than `limit` stores followed its last one. From any state. -/
theorem C65_recent (c : Cache) (t : Bytes) (v : JV) (l : List (Bytes × JV)) (ht : 10 ≤ t.length) (hl : ∀ e ∈ l, 10 ≤ e.1.length)
    (hlen : l.length < c.limit) :
    ∃ c' w, crun c (.store t v :: storesOf l) = .ok c' ∧ c'.get t = .ok (some w) := by
  have hin : (Jwt.find (ins c t v) t).isSome = true := by
    unfold ins
    split
    · assumption
    · exact find_isSome_of_mem (v := v) List.mem_cons_self
  have : ∃ c', crun c (.store t v :: storesOf l) = .ok c' ∧ ((Jwt.find c'.c1 t).or (Jwt.find c'.c2 t)).isSome = true := by
    show ∃ c', (do let c ← c.store t v; crun c (storesOf l)) = .ok c' ∧ _
    rw [store_eq c t v ht, Res.bind_ok]
    split
    · apply keeps t l _ hl
      right; exact ⟨hin, by simpa using hlen⟩
    · apply keeps t l _ hl
      left; exact ⟨hin, hlen⟩
  obtain ⟨c', h1, h2⟩ := this
  obtain ⟨w, hw⟩ := Option.isSome_iff_exists.1 h2
  refine ⟨c', w, h1, ?_⟩
  simp only [Cache.get, hashOk, ht, decide_true, if_true, hw]

example : LongToks [.store (ascii "aaaaaaaaaa.b.c") .null, .clear, .store (ascii "bbbbbbbbbb.b.c") (.bool true)] := by
  intro t v h
  simp only [List.mem_cons, List.not_mem_nil, or_false, COp.store.injEq, reduceCtorEq, false_or] at h
  rcases h with ⟨rfl, -⟩ | ⟨rfl, -⟩ <;> decide

/-- **C65, violation.** The most recently stored content is not kept: storing a token again while it is in the first map has no effect. -/
theorem C65_violation_stale :
    (do let c ← (Cache.mk' 10).store (ascii "aaaaaaaaaa") (.bool false)
        let c ← c.store (ascii "aaaaaaaaaa") (.bool true)
        c.get (ascii "aaaaaaaaaa")) = .ok (some (.bool false)) := by decide +kernel

/-- **C84 (partial).** Looking up and storing is defined for tokens of at least ten characters. -/
theorem C84_defined_partial (c : Cache) (t : Bytes) (v : JV) (h : 10 ≤ t.length) :
    (∃ r, c.get t = .ok r) ∧ ∃ c', c.store t v = .ok c' := by
  refine ⟨⟨_, by simp only [Cache.get, hashOk, h, decide_true, if_true]; rfl⟩, ⟨_, store_eq c t v h⟩⟩
/-- **C84, violation.** For every shorter token the hash is computed from uninitialised memory. -/
theorem C84_violation_short (c : Cache) (t : Bytes) (v : JV) (h : t.length < 10) : c.get t = .ub ∧ c.store t v = .ub := by
  have : ¬ 10 ≤ t.length := by omega
  simp [Cache.get, Cache.store, hashOk, this]
example : (Cache.mk' 5).get (ascii "a.b.c") = .ub := by decide +kernel

/-! ### C85: container of keys -/

/-- Sorted by `isLess`, as `prepare` leaves the vector (jwt.cpp:155-157). -/
def SortedItems (m : List Item) : Prop := m.Pairwise (fun a b => isLess b a = false)

theorem isLess_key (i : Item) (kid : Bytes) : isLess i ⟨kid, none⟩ = decide (cmpBytes i.kid kid = .lt) := by
  unfold isLess
  cases h : cmpBytes i.kid kid with
  | lt => simp
  | gt => simp
  | eq => cases i.obj <;> simp

theorem isLess_kid {a b : Item} (h : isLess b a = false) : cmpBytes a.kid b.kid ≠ .gt := by
  intro h'
  have h2 : cmpBytes b.kid a.kid = .lt := ObjB.cmp_gt_swap h'
  unfold isLess at h
  simp only [h2] at h
  cases h

/-- Spec of the selection in a sorted vector: the first item with the key, in order. -/
theorem select_spec (m : List Item) (hs : SortedItems m) (kid : Bytes) :
    m.find? (fun i => !isLess i ⟨kid, none⟩) = none ∧ (∀ i ∈ m, i.kid ≠ kid) ∨
    (∃ i, m.find? (fun i => !isLess i ⟨kid, none⟩) = some i ∧ i.kid ≠ kid ∧ ∀ i ∈ m, i.kid ≠ kid) ∨
    (∃ i, m.find? (fun i => !isLess i ⟨kid, none⟩) = some i ∧ i.kid = kid ∧ i ∈ m ∧ ∀ j ∈ m, j.kid = kid → isLess j i = false) := by
  induction m with
  | nil => left; exact ⟨rfl, by intro i h; cases h⟩
  | cons a m ih =>
    have hs' := List.pairwise_cons.1 hs
    rw [List.find?_cons, isLess_key]
    cases h : cmpBytes a.kid kid with
    | lt =>
      simp only [decide_true, Bool.not_true]
      have hne : a.kid ≠ kid := by intro e; rw [e, cmpBytes_self] at h; cases h
      rcases ih hs'.2 with ⟨h1, h2⟩ | ⟨i, h1, h2, h3⟩ | ⟨i, h1, h2, h3, h4⟩
      · left; exact ⟨h1, by
          intro i hi; rcases List.mem_cons.1 hi with rfl | hi
          · exact hne
          · exact h2 i hi⟩
      · right; left; exact ⟨i, h1, h2, by
          intro i hi; rcases List.mem_cons.1 hi with rfl | hi
          · exact hne
          · exact h3 i hi⟩
      · right; right; refine ⟨i, h1, h2, List.mem_cons_of_mem _ h3, ?_⟩
        intro j hj hk
        rcases List.mem_cons.1 hj with rfl | hj
        · exact absurd hk hne
        · exact h4 j hj hk
    | eq =>
      have hk : a.kid = kid := (cmpBytes_eq_iff _ _).1 h
      right; right
      refine ⟨a, by simp, hk, List.mem_cons_self, ?_⟩
      intro j hj hjk
      rcases List.mem_cons.1 hj with rfl | hj
      · unfold isLess
        simp only [cmpBytes_self]
        cases j.obj with
        | none => rfl
        | some p => obtain ⟨x, n⟩ := p; simp
      · exact hs'.1 j hj
    | gt =>
      have hne : a.kid ≠ kid := by intro e; rw [e, cmpBytes_self] at h; cases h
      right; left
      refine ⟨a, by simp, hne, ?_⟩
      intro i hi hik
      rcases List.mem_cons.1 hi with rfl | hi
      · exact hne hik
      · have := isLess_kid (hs'.1 i hi)
        rw [hik] at this
        exact this h

/-- Objects in the vector are pointers: the same object has the same algorithm name. -/
def SameObjects (m : List Item) : Prop :=
  ∀ a ∈ m, ∀ b ∈ m, ∀ x y i, a.obj = some (x, i) → b.obj = some (y, i) → x = y

/-- Rank by which `isLess` orders: key, then null before objects, then algorithm name. -/
def ItemBelow (a b : Item) : Prop :=
  cmpBytes a.kid b.kid = .lt ∨ (a.kid = b.kid ∧ match a.obj, b.obj with
    | none, some _ => True
    | some (x, _), some (y, _) => cmpBytes x y = .lt
    | _, none => False)

/-- **C85.** The order by which the container is sorted and searched is the lexicographic one by key identifier, null and algorithm
name. -/
theorem C85_order (a b : Item) (h : SameObjects [a, b]) : isLess a b = true ↔ ItemBelow a b := by
  obtain ⟨ka, oa⟩ := a
  obtain ⟨kb, ob⟩ := b
  unfold isLess ItemBelow
  dsimp only
  cases hc : cmpBytes ka kb with
  | lt => simp
  | gt =>
    have hne : ka ≠ kb := by rintro rfl; rw [cmpBytes_self] at hc; cases hc
    simp [hne]
  | eq =>
    have he : ka = kb := (cmpBytes_eq_iff _ _).1 hc
    cases oa with
    | none => cases ob <;> simp [he]
    | some p =>
      cases ob with
      | none => simp
      | some q =>
        obtain ⟨x, i⟩ := p
        obtain ⟨y, j⟩ := q
        dsimp only
        by_cases hij : i = j
        · have hxy : x = y := h ⟨ka, some (x, i)⟩ (by simp) ⟨kb, some (y, j)⟩ (by simp) x y i rfl (by rw [hij])
          simp [hij, hxy, cmpBytes_self]
        · simp [hij, he]

/-- **C85.** This order is a strict weak one, which sorting and binary search require: irreflexive and negatively transitive. -/
theorem C85_strict_weak (m : List Item) (h : SameObjects m) : (∀ a ∈ m, isLess a a = false) ∧
    (∀ a ∈ m, ∀ b ∈ m, isLess a b = true → isLess b a = false) ∧
    (∀ a ∈ m, ∀ b ∈ m, ∀ c ∈ m, isLess a c = true → isLess a b = true ∨ isLess b c = true) := by
  have two : ∀ a ∈ m, ∀ b ∈ m, SameObjects [a, b] := by
    intro a ha b hb x hx y hy
    have hm : ∀ z ∈ [a, b], z ∈ m := by
      intro z hz
      rcases List.mem_cons.1 hz with rfl | hz
      · exact ha
      · rw [List.mem_singleton.1 hz]; exact hb
    exact h x (hm x hx) y (hm y hy)
  have asym : ∀ a ∈ m, ∀ b ∈ m, isLess a b = true → isLess b a = false := by
    intro a ha b hb hab
    rw [Bool.eq_false_iff]
    intro hba
    rw [C85_order _ _ (two a ha b hb)] at hab
    rw [C85_order _ _ (two b hb a ha)] at hba
    obtain ⟨ka, oa⟩ := a
    obtain ⟨kb, ob⟩ := b
    unfold ItemBelow at hab hba
    dsimp only at hab hba
    rcases hab with h1 | ⟨rfl, h1⟩
    · rcases hba with h2 | ⟨rfl, -⟩
      · exact absurd (cmpBytes_lt_trans h1 h2) (by rw [cmpBytes_self]; simp)
      · rw [cmpBytes_self] at h1; cases h1
    · rcases hba with h2 | ⟨-, h2⟩
      · rw [cmpBytes_self] at h2; cases h2
      · cases oa with
        | none => cases ob <;> simp at h1 h2
        | some p =>
          cases ob with
          | none => simp at h1
          | some q =>
            dsimp only at h1 h2
            exact absurd (cmpBytes_lt_trans h1 h2) (by rw [cmpBytes_self]; simp)
  refine ⟨?_, asym, ?_⟩
  · intro a ha
    cases he : isLess a a with
    | false => rfl
    | true => exact absurd he (by rw [asym a ha a ha he]; simp)
  · intro a ha b hb c hc hac
    rw [C85_order _ _ (two a ha c hc)] at hac
    rw [C85_order _ _ (two a ha b hb), C85_order _ _ (two b hb c hc)]
    have tri : ∀ x y z : Bytes, cmpBytes x z = .lt → cmpBytes x y = .lt ∨ cmpBytes y z = .lt := by
      intro x y z h
      cases h1 : cmpBytes x y with
      | lt => exact Or.inl rfl
      | eq => rw [← (cmpBytes_eq_iff _ _).1 h1]; exact Or.inr h
      | gt => exact Or.inr (cmpBytes_lt_trans (ObjB.cmp_gt_swap h1) h)
    obtain ⟨ka, oa⟩ := a
    obtain ⟨kb, ob⟩ := b
    obtain ⟨kc, oc⟩ := c
    unfold ItemBelow at hac ⊢
    dsimp only at hac ⊢
    rcases hac with h1 | ⟨rfl, h1⟩
    · rcases tri ka kb kc h1 with h2 | h2
      · exact Or.inl (Or.inl h2)
      · exact Or.inr (Or.inl h2)
    · cases h1' : cmpBytes ka kb with
      | lt => exact Or.inl (Or.inl rfl)
      | gt => exact Or.inr (Or.inl (ObjB.cmp_gt_swap h1'))
      | eq =>
        have := (cmpBytes_eq_iff _ _).1 h1'
        subst this
        cases oc with
        | none => cases oa <;> simp at h1
        | some r =>
          cases ob with
          | none => exact Or.inr (Or.inr ⟨rfl, trivial⟩)
          | some q =>
            cases oa with
            | none => exact Or.inl (Or.inr ⟨rfl, trivial⟩)
            | some p =>
              rcases tri p.1 q.1 r.1 h1 with h2 | h2
              · exact Or.inl (Or.inr ⟨rfl, h2⟩)
              · exact Or.inr (Or.inr ⟨rfl, h2⟩)

example : SameObjects [⟨ascii "a", some (ascii "HS256", 1)⟩, ⟨ascii "b", some (ascii "HS256", 1)⟩, ⟨ascii "b", none⟩] := by
  intro a ha b hb x y i h1 h2
  simp only [List.mem_cons, List.not_mem_nil, or_false] at ha hb
  rcases ha with rfl | rfl | rfl <;> rcases hb with rfl | rfl | rfl <;> simp_all

/-- **C85 (partial).** In a sorted container without null pointers, `sign` and `verify` use an object registered under exactly the key
identifier, if there is one, and refuse otherwise. It is the object with the least algorithm name under the key. -/
theorem C85_select_partial (m : List Item) (hs : SortedItems m) (hn : ∀ i ∈ m, i.obj ≠ none) (kid : Bytes) :
    (select m kid = .ok none ∧ ∀ i ∈ m, i.kid ≠ kid) ∨
    (∃ o, select m kid = .ok (some o) ∧ ⟨kid, some o⟩ ∈ m ∧ ∀ j ∈ m, j.kid = kid → isLess j ⟨kid, some o⟩ = false) := by
  unfold select
  rcases select_spec m hs kid with ⟨h1, h2⟩ | ⟨i, h1, h2, h3⟩ | ⟨i, h1, h2, h3, h4⟩
  · left; rw [h1]; exact ⟨rfl, h2⟩
  · left; rw [h1]; dsimp only; rw [if_neg h2]; exact ⟨rfl, h3⟩
  · right
    rw [h1]; dsimp only; rw [if_pos h2]
    obtain ⟨k, o⟩ := i
    cases o with
    | none => exact absurd rfl (hn _ h3)
    | some o => cases h2; exact ⟨o, rfl, h3, h4⟩

/-- **C85, violation.** Two objects under the same key identifier with different algorithms ("each item is identified by SignMethods"): the
one with the greater algorithm name is never used, whatever method is asked for. -/
theorem C85_violation_alg :
    let m : List Item := [⟨ascii "k", some (ascii "HS256", 1)⟩, ⟨ascii "k", some (ascii "RS256", 2)⟩]
    SortedItems m ∧ ∀ kid, select m kid ≠ .ok (some (ascii "RS256", 2)) := by
  intro m
  have hs : SortedItems m := by unfold SortedItems; decide
  refine ⟨hs, ?_⟩
  intro kid h
  rcases C85_select_partial m hs (by decide) kid with ⟨h1, -⟩ | ⟨o, h1, h2, h3⟩
  · rw [h1] at h; cases h
  · rw [h1] at h
    cases h
    have hk : kid = ascii "k" := by
      simp only [m, List.mem_cons, Item.mk.injEq, List.not_mem_nil, or_false] at h2
      rcases h2 with h2 | h2 <;> exact h2.1
    subst hk
    have := h3 ⟨ascii "k", some (ascii "HS256", 1)⟩ List.mem_cons_self rfl
    revert this; decide

/-- **C85, violation.** An item with a null pointer is dereferenced. -/
theorem C85_violation_null : select [⟨ascii "k", none⟩] (ascii "k") = .ub := by decide +kernel

example : SortedItems [⟨ascii "a", some (ascii "HS256", 1)⟩, ⟨ascii "b", some (ascii "HS256", 2)⟩] := by unfold SortedItems; decide

end Imt.Props
