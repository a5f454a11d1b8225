import Verif.Lemmas.BinSafe
import Verif.Spec.Map
import Verif.Model.ObjCore
/-! # Properties of binary JSON: C18, C19, C20, C21, C70, C71 -/
namespace Imt.Props
open Imt BinJson

/-! ## C18 -/

/-- C18 for the values described by `Good`: texts and keys do not start with a byte 0x80-0xBF, objects are not diffs,
binary strings are not empty, integers other than -2^63 and, under `maintain32BitComp`, of at most 32 bits. Keys,
nesting, undefined, doubles bit for bit (but zero, see `C18_violation_zero`) are restored, every combination of flags,
and exactly the bytes written are consumed (`rest` is left). Missing from the full claim: exactly the excluded values, for which it fails (see the
violations below), and trees of 2^32-256 or more nodes. -/
theorem C18_round_trip_partial (fl : Flags) (env : Env) (hr : Roomy env) (v : BV) (hv : Good fl v)
    (hn : nodes v + 256 < 2 ^ 32) :
    ∃ b, serializeBinary fl env v = .ok b ∧ ∃ F, ∀ f ≥ F, ∀ rest, ∃ hist ki,
      parseBinary env f (b ++ rest) = .ok (norm v, ⟨rest, hist, ki⟩) := by
  obtain ⟨b, ss', hist', RK', h1, h2, h3, h4⟩ := trip fl env hr v hv SS.init [] [] (Sync.init fl) (by simpa using hn)
  exact ⟨b, by simp [serializeBinary, h1], fuelOf v, fun f hf rest => ⟨hist', RK'.length, h4 f rest hf⟩⟩

mutual
/-- No number uses the 64-bit flag, the signed class for a number not negative, or a double for zero. -/
def Canonical : BV → Prop
  | .node _ sh kids => (∀ n, sh ≠ .uint true n) ∧ (∀ i, sh ≠ .int true i) ∧ (∀ i, sh = .int false i → i < 0) ∧
      (∀ b, sh = .dbl b → b ≠ 0 ∧ b ≠ 2 ^ 63) ∧ CanonicalL kids
def CanonicalL : List BV → Prop
  | [] => True
  | v :: l => Canonical v ∧ CanonicalL l
end

mutual
theorem norm_canonical (v : BV) (h : Canonical v) : norm v = v := by
  match v with
  | .node k sh kids =>
    obtain ⟨h1, h2, h3, h5, h4⟩ := h
    rw [norm, normL_canonical kids h4]
    cases sh with
    | uint long n => cases long with
      | true => exact absurd rfl (h1 n)
      | false => rfl
    | int long i => cases long with
      | true => exact absurd rfl (h2 i)
      | false => simp [normShape, h3 i rfl]
    | dbl b => rw [normShape, if_neg (by have := h5 b rfl; omega)]
    | _ => rfl
theorem normL_canonical (l : List BV) (h : CanonicalL l) : normL l = l := by
  match l with
  | [] => rfl
  | v :: l => rw [normL, norm_canonical v h.1, normL_canonical l h.2]
end

/-- C18, exact: with numbers in their usual representation the very same tree comes back. -/
theorem C18_exact_partial (fl : Flags) (env : Env) (hr : Roomy env) (v : BV) (hv : Good fl v) (hc : Canonical v)
    (hn : nodes v + 256 < 2 ^ 32) :
    ∃ b, serializeBinary fl env v = .ok b ∧ ∃ F, ∀ f ≥ F, ∀ rest, ∃ hist ki,
      parseBinary env f (b ++ rest) = .ok (v, ⟨rest, hist, ki⟩) := by
  have := C18_round_trip_partial fl env hr v hv hn
  rwa [norm_canonical v hc] at this

/-- Sample environment. -/
def env0 : Env := { f64 := fun _ => 0x4200000000000000, avail := fun _ => true }

theorem env0_roomy : Roomy env0 := ⟨fun _ _ => rfl, by decide, by decide, by decide, rfl⟩

/-- `{"name":["identifier", undefined, -5, 7.0], "x": {"name": bin, "y": -1099511627776}}`. -/
def sample : BV :=
  .node [] (.obj false) [
    .node (ascii "name") .arr [.node [] (.str (ascii "identifier")) [], .node [] .undef [],
      .node [] (.int false (-5)) [], .node [] (.dbl 0x401C000000000000) []],
    .node (ascii "x") (.obj false) [.node (ascii "name") (.bin [0x80, 0xFF]) [],
      .node (ascii "y") (.int true (-1099511627776)) []]]

example : Good ⟨true, true, true⟩ sample ∧ nodes sample + 256 < 2 ^ 32 := by
  simp [sample, Good, GoodL, TextOk, ShapeOk, StartOk, Fits, Bytes.Valid, ascii, nodes, nodesL]

/-- Round trip as a function, for the witnesses below. -/
def tripOf (fl : Flags) (v : BV) : Res (Nat × Shape) := do
  let b ← serializeBinary fl env0 v
  let r ← parseBinary env0 100 b
  match r.1 with
  | .node _ sh _ => pure (r.2.s.length, sh)

/-- C18 fails: a string whose first byte is 0x80-0xBF comes back with bit 6 of that byte set. -/
theorem C18_violation_first_byte : ∀ fl, tripOf fl (.node [] (.str [0x80, 0x41]) []) = .ok (0, .str [0xC0, 0x41]) := by
  rintro ⟨a, b, c⟩
  revert a b c
  decide +kernel

/-- C18 fails: a double that is zero of either sign (a number kept as text such as `-0.0` is written as one) comes back
as the integer zero, so the sign is lost. -/
theorem C18_violation_zero : ∀ fl, tripOf fl (.node [] (.dbl (2 ^ 63)) []) = .ok (0, .uint false 0) ∧
    tripOf fl (.node [] (.dbl 0) []) = .ok (0, .uint false 0) := by
  rintro ⟨a, b, c⟩
  revert a b c
  decide +kernel

/-- C18 fails: an object flagged as a diff comes back as an ordinary object. -/
theorem C18_violation_diff : ∀ fl, tripOf fl (.node [] (.obj true) []) = .ok (0, .obj false) := by
  rintro ⟨a, b, c⟩
  revert a b c
  decide +kernel

/-- C18 fails: an empty binary string comes back as an ordinary string. -/
theorem C18_violation_empty_binary : ∀ fl, tripOf fl (.node [] (.bin []) []) = .ok (0, .str []) := by
  rintro ⟨a, b, c⟩
  revert a b c
  decide +kernel

/-- C18 fails: under `maintain32BitComp` a negative integer below -2^32+1 and its positive counterpart are written as
the same bytes, so the sign is lost. -/
theorem C18_violation_compat32_sign (env : Env) (n : Nat) (h1 : 2 ^ 32 ≤ n) (h2 : n < 2 ^ 63) :
    serializeBinary ⟨true, true, true⟩ env (.node [] (.int false (-(n : Int))) []) =
      serializeBinary ⟨true, true, true⟩ env (.node [] (.int false n) []) := by
  have e : ∀ (i : Int) (t : Nat), i.natAbs = n → serInteger ⟨true, true, true⟩ env i.natAbs t = 6 :: le 8 (env.f64 n) := by
    intro i t hi
    unfold serInteger
    rw [hi, if_neg (by omega), if_neg (by omega), if_neg (by omega), if_neg (by omega), if_pos rfl]
  simp only [serializeBinary, ser, serKey, serShape, serInt, serL, if_true, Res.bind_ok, Bool.false_eq_true, if_false]
  rw [if_neg (show ¬ (-(n : Int) = -2 ^ 63) by omega), if_neg (show ¬ ((n : Int) = -2 ^ 63) by omega),
    e _ _ (by omega), e _ _ (by omega)]

example : 2 ^ 32 ≤ 1099511627776 ∧ 1099511627776 < 2 ^ 63 := by decide

/-- C18 fails: the most negative integer has no defined serialization. -/
theorem C18_violation_min : ∀ fl, tripOf fl (.node [] (.int false (-2 ^ 63)) []) = .ub := by
  rintro ⟨a, b, c⟩
  revert a b c
  decide +kernel

/-! ## C19 -/

/-- What the serializer sends for a sequence of keys: the key itself or a code (binjson.tcc:79-83). -/
def sendKeys (ss : SS) : List Bytes → List (Bytes ⊕ Nat)
  | [] => []
  | k :: ks => (match (tryCompressKey ss k).1 with
    | some code => .inr code
    | none => .inl k) :: sendKeys (tryCompressKey ss k).2 ks

/-- What the parser makes of it (binjson.tcc:397-408). -/
def recvKeys (ps : PS) : List (Bytes ⊕ Nat) → Res (List Bytes)
  | [] => .ok []
  | .inl k :: ms => do
    let ps ← storeKey ps k
    let r ← recvKeys ps ms
    pure (k :: r)
  | .inr code :: ms => do
    let r ← recvKeys ps ms
    pure (histKey ps (128 + code) :: r)

theorem recv_send (fl : Flags) (hc : fl.compressKeys = true) (keys : List Bytes) (ss : SS) (hist : List Bytes)
    (RK : List Bytes) (hs : Sync fl ss hist RK.length RK) (hb : RK.length + keys.length + 256 < 2 ^ 32) :
    recvKeys ⟨[], hist, RK.length⟩ (sendKeys ss keys) = .ok keys := by
  induction keys generalizing ss hist RK with
  | nil => rfl
  | cons k ks ih =>
    have hb : RK.length + (ks.length + 1) + 256 < 2 ^ 32 := hb
    have hb1 : RK.length + ks.length + 256 < 2 ^ 32 := by omega
    have hb2 : (k :: RK).length + ks.length + 256 < 2 ^ 32 := by
      rw [List.length_cons]; omega
    rcases tryCompress_spec fl hc ss hist _ RK hs (by omega) k with ⟨code, t1, t2, t3⟩ | ⟨ss', t1, t2, t3⟩
    · have e : sendKeys ss (k :: ks) = .inr code :: sendKeys ss ks :=
        (sendKeys.eq_2 ss k ks).trans (by rw [t1])
      rw [e, recvKeys, ih ss hist RK hs hb1, Res.bind_ok, t3]
      exact Res.pure_eq _
    · have e : sendKeys ss (k :: ks) = .inl k :: sendKeys ss' ks :=
        (sendKeys.eq_2 ss k ks).trans (by rw [t1])
      obtain ⟨hist', g1, g2, g3⟩ := storeKey_ring [] hist RK k (by omega) hs.len hs.ring
      have := ih ss' hist' (k :: RK) ⟨rfl, g2, g3, fun _ => ⟨t2, t3⟩⟩ hb2
      rw [List.length_cons] at this
      rw [e, recvKeys, g1, Res.bind_ok, this, Res.bind_ok]
      exact Res.pure_eq _

/-- C19 for sequences shorter than 2^32-256 keys: every key arrives, whether sent in full or as a back reference, also
after any number of ring overwrites. Missing: longer sequences, for which it fails (`C19_violation_wrap`). -/
theorem C19_synchronised_partial (keys : List Bytes) (h : keys.length + 256 < 2 ^ 32) :
    recvKeys ⟨[], [], 0⟩ (sendKeys SS.init keys) = .ok keys :=
  recv_send ⟨true, false, false⟩ rfl keys SS.init [] [] (Sync.init _) (by simpa using h)

example : sendKeys SS.init [ascii "a", ascii "b", ascii "a", ascii "a", ascii "b"] =
    [.inl (ascii "a"), .inl (ascii "b"), .inr 1, .inr 1, .inr 0] := by decide +kernel

/-- New keys are sent in full until the identifiers wrap. -/
theorem send_fresh (K : List Bytes) (hn : K.Nodup) (ss : SS) (m : Nat) (hm : ss.next = (256 + m) % 2 ^ 32)
    (hb : m + K.length ≤ 2 ^ 32 - 256) (h0 : ∀ k ∈ K, ss.ids k = 0) (R : List Bytes) :
    ∃ ss', sendKeys ss (K ++ R) = K.map .inl ++ sendKeys ss' R ∧ ss'.next = (256 + m + K.length) % 2 ^ 32 ∧
      ∀ x, x ∉ K → ss'.ids x = ss.ids x := by
  induction K generalizing ss m with
  | nil => exact ⟨ss, rfl, hm, fun _ _ => rfl⟩
  | cons k K ih =>
    rw [List.length_cons] at hb
    obtain ⟨hk, hn⟩ := List.nodup_cons.1 hn
    have e : tryCompressKey ss k = (none, ⟨fun x => if x = k then ss.next else ss.ids x, (ss.next + 1) % 2 ^ 32⟩) := by
      unfold tryCompressKey
      simp only
      rw [if_neg]
      rw [h0 k (by simp), hm]; omega
    have e' : sendKeys ss (k :: (K ++ R)) =
        .inl k :: sendKeys ⟨fun x => if x = k then ss.next else ss.ids x, (ss.next + 1) % 2 ^ 32⟩ (K ++ R) :=
      (sendKeys.eq_2 ss k (K ++ R)).trans (by rw [e])
    obtain ⟨ss', s1, s2, s3⟩ := ih hn ⟨fun x => if x = k then ss.next else ss.ids x, (ss.next + 1) % 2 ^ 32⟩ (m + 1)
      (by show (ss.next + 1) % 2 ^ 32 = _
          rw [hm]; omega) (by omega)
      (fun x hx => by
        show (if x = k then ss.next else ss.ids x) = 0
        rw [if_neg (by rintro rfl; exact hk hx)]
        exact h0 x (List.mem_cons_of_mem _ hx))
    refine ⟨ss', ?_, ?_, fun x hx => ?_⟩
    · rw [List.cons_append, e', s1, List.map_cons, List.cons_append]
    · rw [s2, List.length_cons, show 256 + (m + 1) + K.length = 256 + m + (K.length + 1) by omega]
    · rw [s3 x (fun h => hx (List.mem_cons_of_mem _ h))]
      show (if x = k then ss.next else ss.ids x) = _
      rw [if_neg (by rintro rfl; exact hx (by simp))]

/-- Keys received in full keep the ring in order. -/
theorem recv_full (K : List Bytes) (hist : List Bytes) (RK : List Bytes) (hb : RK.length + K.length < 2 ^ 32)
    (hl : hist.length = min RK.length 128)
    (hr : ∀ d, d < hist.length → hist[(RK.length - 1 - d) % 128]? = RK[d]?) (M : List (Bytes ⊕ Nat)) :
    ∃ hist', recvKeys ⟨[], hist, RK.length⟩ (K.map .inl ++ M) =
        (do let r ← recvKeys ⟨[], hist', (K.reverse ++ RK).length⟩ M
            pure (K ++ r)) ∧
      hist'.length = min (K.reverse ++ RK).length 128 ∧
      ∀ d, d < hist'.length → hist'[((K.reverse ++ RK).length - 1 - d) % 128]? = (K.reverse ++ RK)[d]? := by
  induction K generalizing hist RK with
  | nil =>
    refine ⟨hist, ?_, hl, hr⟩
    rw [List.map_nil, List.nil_append, List.reverse_nil, List.nil_append]
    generalize recvKeys _ M = x
    cases x <;> rfl
  | cons k K ih =>
    rw [List.length_cons] at hb
    obtain ⟨hist1, g1, g2, g3⟩ := storeKey_ring [] hist RK k (by omega) hl hr
    have hlen : (k :: RK).length = RK.length + 1 := rfl
    obtain ⟨hist', s1, s2, s3⟩ := ih hist1 (k :: RK) (by rw [hlen]; omega) (by rw [hlen]; exact g2)
      (by rw [hlen]; exact g3)
    have er : (k :: K).reverse ++ RK = K.reverse ++ k :: RK := by simp
    rw [hlen] at s1
    refine ⟨hist', ?_, by rw [er]; exact s2, by rw [er]; exact s3⟩
    rw [List.map_cons, List.cons_append, recvKeys, g1, Res.bind_ok, s1, er]
    generalize recvKeys _ M = x
    cases x <;> rfl

/-- C19 fails once the 32-bit identifiers wrap: after 2^32-256 different keys, one more is sent in full, and the next
key, never seen before, is sent as a reference to its predecessor. -/
theorem C19_violation_wrap (K : List Bytes) (a b : Bytes) (hn : (K ++ [a, b]).Nodup) (hl : K.length = 2 ^ 32 - 256) :
    recvKeys ⟨[], [], 0⟩ (sendKeys SS.init (K ++ [a, b])) = .ok (K ++ [a, a]) ∧ a ≠ b := by
  obtain ⟨n1, n2, n3⟩ := List.nodup_append.1 hn
  obtain ⟨ss, s1, s2, s3⟩ := send_fresh K n1 SS.init 0 rfl (by rw [hl]; omega) (fun _ _ => rfl) [a, b]
  have hab : a ≠ b := by
    intro h; rw [h] at n2; simp at n2
  have ha : ss.ids a = 0 := s3 a (fun h => n3 a h a (by simp) rfl)
  have hbb : ss.ids b = 0 := s3 b (fun h => n3 b h b (by simp) rfl)
  have hnx : ss.next = 0 := by rw [s2, hl]
  have ea : tryCompressKey ss a = (none, ⟨fun x => if x = a then ss.next else ss.ids x, 1⟩) := by
    unfold tryCompressKey
    rw [hnx, ha]
    rfl
  have eb : tryCompressKey ⟨fun x => if x = a then ss.next else ss.ids x, 1⟩ b =
      (some 0, ⟨fun x => if x = a then ss.next else ss.ids x, 1⟩) := by
    unfold tryCompressKey
    simp only
    rw [if_neg (Ne.symm hab), hbb]
    rfl
  have e1 : sendKeys ss [a, b] = [.inl a, .inr 0] := by
    rw [sendKeys.eq_2, ea]
    simp only
    rw [sendKeys.eq_2, eb]
    rfl
  rw [e1] at s1
  refine ⟨?_, hab⟩
  obtain ⟨hist, r1, r2, r3⟩ := recv_full K [] [] (by rw [hl]; simp) (by simp) (by simp) [.inl a, .inr 0]
  rw [s1]
  refine r1.trans ?_
  obtain ⟨hist', g1, g2, g3⟩ := storeKey_ring [] hist (K.reverse ++ []) a
    (by rw [List.length_append, List.length_reverse, hl]; simp) r2 r3
  have hlen : (K.reverse ++ []).length = 2 ^ 32 - 256 := by rw [List.length_append, List.length_reverse, hl]; rfl
  have hk : histKey ⟨[], hist', (K.reverse ++ []).length + 1⟩ (128 + 0) = a := by
    have h0 := g3 0 (by rw [g2, hlen]; decide)
    unfold histKey
    rw [List.getD_eq_getElem?_getD]
    rw [hlen] at h0 ⊢
    have e : (2 ^ 32 - 256 + 1 + (2 ^ 32 - 1) + (2 ^ 32 - (128 + 0))) % 2 ^ 32 % 128 = (2 ^ 32 - 256 + 1 - 1 - 0) % 128 := by
      decide
    rw [e, h0]; rfl
  rw [recvKeys, g1, Res.bind_ok, recvKeys, recvKeys, Res.bind_ok, hk]
  rfl

/-- Such a sequence of keys exists. -/
example : ∃ (K : List Bytes) (a b : Bytes), (K ++ [a, b]).Nodup ∧ K.length = 2 ^ 32 - 256 := by
  refine ⟨(List.range (2 ^ 32 - 256)).map (le 8), le 8 (2 ^ 40), le 8 (2 ^ 41), ?_, by rw [List.length_map, List.length_range]⟩
  have inj : ∀ x y, x < 2 ^ 64 → y < 2 ^ 64 → le 8 x = le 8 y → x = y := by
    intro x y hx hy h
    have := congrArg ofLe h
    rwa [ofLe_le 8 x (by omega), ofLe_le 8 y (by omega)] at this
  rw [List.nodup_append]
  refine ⟨?_, by decide, ?_⟩
  · rw [List.nodup_iff_pairwise_ne, List.pairwise_map]
    refine List.Pairwise.imp_of_mem ?_ (List.nodup_iff_pairwise_ne.1 List.nodup_range)
    intro x y hx hy hne h
    rw [List.mem_range] at hx hy
    exact hne (inj x y (by omega) (by omega) h)
  · intro x hx y hy
    rw [List.mem_map] at hx
    obtain ⟨i, hi, rfl⟩ := hx
    rw [List.mem_range] at hi
    intro h
    simp only [List.mem_cons, List.not_mem_nil, or_false] at hy
    rcases hy with rfl | rfl
    · have := inj _ _ (by omega) (by omega) h; omega
    · have := inj _ _ (by omega) (by omega) h; omega

/-! ## C20 -/

/-- C20: every token string (of letters, digits, `_`, `-`, longer than four) is packed into `1 + ⌈3(n-1)/4⌉` bytes
without leaving its buffer and read back exactly, whatever the uninitialised bytes of the reader's buffer are. -/
theorem C20_tokens (env : Env) (hr : Roomy env) (s : Bytes) (hd : ∀ c ∈ s, ∃ i < 64, c = Spec.digitUrl i) (hl : 4 < s.length)
    (hs : s.length < 2 ^ 32) (ck c32 : Bool) :
    ∃ body tag bs, serChars ⟨ck, true, c32⟩ s false = .ok body ∧ body.length = 1 + ((s.length - 1) * 3 + 3) / 4 ∧
      serString ⟨ck, true, c32⟩ env s 0x40 = .ok (tag :: bs) ∧
      ∀ rest h k, parseString env tag false ⟨bs ++ rest, h, k⟩ = .ok (s, ⟨rest, h, k⟩) := by
  have ht : ∀ c ∈ s, isTok c = true := fun c hc => by
    obtain ⟨i, hi, rfl⟩ := hd c hc
    exact dig_isTok i hi
  have hok : TextOk ⟨ck, true, c32⟩ s := by
    refine ⟨fun c hc => isTok_lt (ht c hc), fun c hc => ?_, by omega, fun _ => hs⟩
    have := ht c (List.mem_of_mem_head? hc)
    simp [isTok] at this; omega
  obtain ⟨tag, bs, e1, _, e3⟩ := serString_text ⟨ck, true, c32⟩ env hr s hok 0x40 rfl (by decide)
  obtain ⟨l, hl1, hl2⟩ := tok_digits s ht
  match l with
  | [] => subst hl2; simp at hl
  | i :: l =>
    obtain ⟨d', hd1, hd2⟩ := decLoop_pack Base64.tableUrl l (fun j hj => hl1 j (by simp [hj]))
      ((l.length * 3 + 3) / 4) 0 rfl ⟨[], 0⟩ (by simp)
    have hcc : canCompress s = true := by
      simp only [canCompress, Bool.and_eq_true, decide_eq_true_eq, List.all_eq_true]
      exact ⟨hl, ht⟩
    subst hl2
    refine ⟨(i ||| 0x80) :: pack l, tag, bs, ?_, ?_, e1, e3⟩
    · simp only [List.map_cons, serChars] at hcc ⊢
      simp only [Bool.false_eq_true, if_false, hcc, Bool.and_self, if_true, List.length_map, hd1, Res.bind_ok,
        Res.pure_eq, hd2, Base64.tableUrl i (hl1 i (by simp)), List.nil_append]
    · simp [pack_length]; omega

example : (∀ c ∈ ascii "user_ID-42", ∃ i < 64, c = Spec.digitUrl i) ∧ 4 < (ascii "user_ID-42").length := by decide +kernel

/-! ## C21 -/

/-- C21 for sources that throw at the end of their data: on every byte string the parser ends with a value or an
exception (or undefined behaviour, see C70); a recursion depth of twice the length suffices. Missing: sources that keep
returning end-of-file, for which it fails (`C21_violation_eof`). -/
theorem C21_terminates_partial (env : Env) (he : env.eofThrows = true) (s : Bytes) (hv : Bytes.Valid s) (f : Nat)
    (hf : 2 * s.length + 1 ≤ f) : parseBinary env f s ≠ .fuel ∧ parseBinary env f s ≠ .abort := by
  have := parseItem_post True False env f ⟨s, [], 0⟩ hv (Or.inl trivial) (Or.inr ⟨he, hf⟩)
  unfold parseBinary
  constructor
  · intro h; rw [h] at this; exact this
  · intro h; rw [h] at this; exact this

example : Bytes.Valid [0x6A, 0xFF, 0x80, 0x01] ∧ 2 * [0x6A, 0xFF, 0x80, 0x01].length + 1 ≤ 9 := by decide

/-- C21 fails: with a source that returns -1 at the end of its data the parser, asked for an item where
nothing is left, recurses without end: no depth suffices. -/
theorem C21_violation_eof (env : Env) (he : env.eofThrows = false) (f : Nat) (hist : List Bytes) (ki : Nat) :
    parseItem env f ⟨[], hist, ki⟩ = .fuel := by
  induction f with
  | zero => rfl
  | succ f ih =>
    rw [parseItem]
    simp [next, he, ih]

/-! ## C70 -/

/-- C70 for streams without bytes `xD` (the tags announcing a 64-bit length): no undefined behaviour, whatever the
bytes, whichever allocations fail, and at whatever depth the analysis stops. Missing: streams with such bytes, for which
it fails (`C70_violation_*`). -/
theorem C70_safe_partial (env : Env) (hs : Small env) (s : Bytes) (hv : Bytes.Valid s) (h : ∀ b ∈ s, b % 16 ≠ 13)
    (f : Nat) : parseBinary env f s ≠ .ub := by
  have := parseItem_post False True env f ⟨s, [], 0⟩ hv (Or.inr ⟨hs, h, Or.inr ⟨rfl, by simp⟩⟩) (Or.inl trivial)
  unfold parseBinary
  intro h'; rw [h'] at this; exact this

example : Small env0 ∧ ∀ b ∈ [0x6A, 0xFF, 0x80, 0x01, 0x44, 0xBF, 0x00], b % 16 ≠ 13 := by
  refine ⟨⟨by decide, by decide, by decide⟩, by decide⟩

/-- C70 fails: nine bytes announce an array of 2^61 items; the size computation wraps, a block without any item
slot is allocated, and the first item is stored behind it. -/
theorem C70_violation_array (env : Env) (ha : env.avail env.objArr = true) (hs : env.objArr < 2 ^ 32) (f : Nat) :
    parseBinary env (f + 3) [0x6D, 0, 0, 0, 0, 0, 0, 0, 0x20, 0x01] = .ub := by
  have e1 : parseInteger env 0x6D ⟨[0, 0, 0, 0, 0, 0, 0, 0x20, 0x01], [], 0⟩ = .ok (2 ^ 61, ⟨[0x01], [], 0⟩) := rfl
  have e2 : allocArr env (2 ^ 61) = .ok 0 := by
    unfold allocArr
    simp only
    have : (env.objArr + 2 ^ 61 * 8) % 2 ^ 64 = env.objArr := by omega
    rw [this, ha, if_neg (by decide), if_neg (by omega)]
    simp
  unfold parseBinary
  rw [parseItem]
  simp only [next, Res.bind_ok, Nat.reduceDiv]
  rw [e1]
  simp only [Res.bind_ok]
  rw [e2]
  simp only [Res.bind_ok]
  rw [show (2 : Nat) ^ 61 = (2 ^ 61 - 1) + 1 from rfl, parseItems]
  simp [parseItem, next]

/-- C70 fails: a string of announced length 2^64-1 is given a block for the fixed part only, and its terminator is
stored far outside. -/
theorem C70_violation_string (env : Env) (ha : ∀ n, env.avail n = true) (f : Nat) :
    parseBinary env (f + 1) [0x4D, 0xFF, 0xFF, 0xFF, 0xFF, 0xFF, 0xFF, 0xFF, 0xFF, 0x41] = .ub := by
  have e1 : parseInteger env 0x4D ⟨[0xFF, 0xFF, 0xFF, 0xFF, 0xFF, 0xFF, 0xFF, 0xFF, 0x41], [], 0⟩ =
      .ok (2 ^ 64 - 1, ⟨[0x41], [], 0⟩) := rfl
  have e2 : allocStr env (2 ^ 64 - 1) = .ub := by
    unfold allocStr
    simp only
    rw [ha, if_neg (by decide), if_pos]
    by_cases h : env.magic < 2 ^ 64
    · right; omega
    · left; omega
  unfold parseBinary
  rw [parseItem]
  simp only [next, Res.bind_ok, Nat.reduceDiv]
  unfold parseString
  rw [e1]
  simp only [Res.bind_ok]
  rw [if_neg (by decide)]
  simp only [if_true, next, Res.bind_ok]
  rw [e2]
  rfl

/-- C70 fails: a negative integer of magnitude 2^63 overflows when negated. -/
theorem C70_violation_negint (env : Env) (f : Nat) :
    parseBinary env (f + 1) [0x3D, 0, 0, 0, 0, 0, 0, 0, 0x80] = .ub := rfl

/-! ## C71 -/

/-- Members of an object node, as `findSorted` sees them. -/
def membersOf : BV → List (Bytes × Shape)
  | .node _ _ kids => kids.map fun | .node k sh _ => (k, sh)

/-- C71 for streams the serializer wrote: sorted members come back sorted. Missing: other streams, for which it
fails. -/
theorem C71_sorted_partial (fl : Flags) (env : Env) (hr : Roomy env) (v : BV) (hv : Good fl v)
    (hs : Spec.StrictSorted (membersOf v)) (hn : nodes v + 256 < 2 ^ 32) :
    ∃ b, serializeBinary fl env v = .ok b ∧ ∃ F, ∀ f ≥ F, ∃ w ps,
      parseBinary env f b = .ok (w, ps) ∧ Spec.StrictSorted (membersOf w) ∧
      (membersOf w).map (·.1) = (membersOf v).map (·.1) := by
  obtain ⟨b, h1, F, h2⟩ := C18_round_trip_partial fl env hr v hv hn
  have hk : (membersOf (norm v)).map (·.1) = (membersOf v).map (·.1) := by
    match v with
    | .node k sh kids =>
      rw [norm]
      unfold membersOf
      clear hv hs hn h1 h2
      induction kids with
      | nil => rfl
      | cons x l ih => cases x; simp only [normL, norm, List.map_cons, ih]
  refine ⟨b, h1, F, fun f hf => ?_⟩
  obtain ⟨hist, ki, h3⟩ := h2 f hf []
  rw [List.append_nil] at h3
  refine ⟨_, _, h3, ?_, hk⟩
  have : ∀ l : List (Bytes × Shape), Spec.StrictSorted l ↔
      (l.map (·.1)).Pairwise (fun a b => cmpBytes a b = .lt) := fun l => by rw [List.pairwise_map]; rfl
  rw [this] at hs ⊢
  rw [hk]; exact hs

example : Spec.StrictSorted (membersOf sample) := by decide +kernel

/-- C71 fails: the binary parser keeps the order of the stream, so a stream naming "b" before "a" yields an object whose
members are not sorted, and looking up "b" finds nothing although the member is there. -/
theorem C71_violation_unsorted : ∃ v ps, parseBinary env0 10 [0x52, 0x71, 0x62, 0x21, 0x71, 0x61, 0x22] = .ok (v, ps) ∧
    ¬ Spec.StrictSorted (membersOf v) ∧ (ascii "b", Shape.uint false 1) ∈ membersOf v ∧
    Obj.member (membersOf v) (ascii "b") = none := by
  refine ⟨.node [] (.obj false) [.node (ascii "b") (.uint false 1) [], .node (ascii "a") (.uint false 2) []], _, rfl,
    ?_, ?_, ?_⟩
  · decide +kernel
  · decide +kernel
  · decide +kernel

end Imt.Props
