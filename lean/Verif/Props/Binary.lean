import Verif.Props.BinEnc
import Verif.Props.Serializer
import Verif.Model.Binary
/-! # Properties of binary strings: C128, C129 -/
namespace Imt.Props
open Imt Parser Spec Ser
open Imt.Binary

/-! ## Chunks of the base64 encoders -/

theorem encStep_out (chars : Bytes) (k : Nat) (o b : Bytes) (n c : Nat) :
    Base64.encStep chars k ⟨o, b, n⟩ c =
      Base64.encStep chars k ⟨[], b, n⟩ c >>= fun e => .ok ⟨o ++ e.out, e.buf, e.nx⟩ := by
  have fl : ∀ (b : Bytes) (n : Nat), (⟨o, b, n⟩ : Base64.Enc).flush =
      ⟨o ++ (⟨[], b, n⟩ : Base64.Enc).flush.out, (⟨[], b, n⟩ : Base64.Enc).flush.buf, (⟨[], b, n⟩ : Base64.Enc).flush.nx⟩ := by
    intro b n
    unfold Base64.Enc.flush
    by_cases h : b.length > 250
    · simp [h]
    · simp [h]
  unfold Base64.encStep
  split
  · cases Base64.lookup chars (c >>> 2) with
    | ok ch =>
      simp only [Res.bind_ok, Base64.Enc.put]
      split
      · exact congrArg Res.ok (fl _ _)
      · rfl
    | _ => rfl
  · cases Base64.lookup chars (n ||| c >>> 4) with
    | ok ch =>
      simp only [Res.bind_ok, Base64.Enc.put]
      split
      · exact congrArg Res.ok (fl _ _)
      · rfl
    | _ => rfl
  · cases Base64.lookup chars (n ||| c >>> 6) with
    | ok ch =>
      simp only [Res.bind_ok, Base64.Enc.put]
      split
      · simp only [Res.bind_ok]
        cases Base64.lookup chars (c &&& 63) with
        | ok ch =>
          simp only [Res.bind_ok]
          split
          · exact congrArg Res.ok (fl _ _)
          · rfl
        | _ => rfl
      · rfl
    | _ => rfl

theorem encLoop_chunks (chars : Bytes) (cs : Bytes) : ∀ (k : Nat) (e : Base64.Enc) (o : Bytes),
    Base64.encLoop chars k ⟨o, e.buf, e.nx⟩ cs =
      chunkLoop chars k e cs >>= fun r => .ok (r.2.1, ⟨o ++ r.1.flatten, r.2.2.buf, r.2.2.nx⟩) := by
  induction cs with
  | nil => intro k e o; simp [Base64.encLoop, chunkLoop]
  | cons c cs ih =>
    intro k e o
    rw [Base64.encLoop, chunkLoop, encStep_out]
    cases h : Base64.encStep chars k ⟨[], e.buf, e.nx⟩ c with
    | ok e1 =>
      simp only [Res.bind_ok]
      rw [ih (k + 1) e1 (o ++ e1.out)]
      cases h2 : chunkLoop chars (k + 1) e1 cs with
      | ok r =>
        simp only [Res.bind_ok]
        show Res.ok _ = Res.ok _
        congr 2
        congr 1
        by_cases h0 : e1.out = [] <;> simp [h0]
      | _ => rfl
    | _ => rfl

theorem put_buf (e : Base64.Enc) (o : Bytes) (ch : Nat) :
    (⟨o, e.buf, e.nx⟩ : Base64.Enc).put ch = e.put ch >>= fun e' => .ok ⟨o, e'.buf, e'.nx⟩ := by
  unfold Base64.Enc.put
  split <;> rfl

theorem putPad_buf (n : Nat) : ∀ (e : Base64.Enc) (o : Bytes),
    Base64.putPad n ⟨o, e.buf, e.nx⟩ = Base64.putPad n e >>= fun e' => .ok ⟨o, e'.buf, e'.nx⟩ := by
  induction n with
  | zero => intro e o; rfl
  | succ n ih =>
    intro e o
    rw [Base64.putPad, Base64.putPad, put_buf]
    cases e.put 0x3D with
    | ok e1 => simp only [Res.bind_ok]; exact ih e1 o
    | _ => rfl

/-- The chunks together are what the encoder writes. -/
theorem chunks64_flatten (chars : Bytes) (tail : Bool) (data t : Bytes) (h : Base64.encodeCore chars tail data = .ok t) :
    ∃ l, chunks64 chars tail data = .ok l ∧ l.flatten = t := by
  unfold Base64.encodeCore at h
  unfold chunks64
  by_cases h0 : data.length = 0
  · rw [if_pos h0] at h ⊢
    exact ⟨[], rfl, by cases h; rfl⟩
  · rw [if_neg h0] at h ⊢
    have := encLoop_chunks chars data 0 ⟨[], [], 0⟩ []
    simp only at this
    rw [this] at h
    cases hc : chunkLoop chars 0 ⟨[], [], 0⟩ data with
    | ok r =>
      rw [hc] at h
      simp only [Res.bind_ok, List.nil_append] at h ⊢
      by_cases hm : r.2.1 % 3 ≠ 0
      · rw [if_pos hm] at h ⊢
        cases hl : Base64.lookup chars r.2.2.nx with
        | ok ch =>
          rw [hl] at h
          simp only [Res.bind_ok] at h ⊢
          rw [put_buf] at h
          cases hp : r.2.2.put ch with
          | ok e1 =>
            rw [hp] at h
            simp only [Res.bind_ok] at h ⊢
            cases tail with
            | false => cases h; exact ⟨_, rfl, by simp⟩
            | true =>
              simp only [if_true] at h ⊢
              rw [putPad_buf] at h
              cases hq : Base64.putPad ((data.length + 2) / 3 * 3 - data.length) e1 with
              | ok e2 => rw [hq] at h; cases h; exact ⟨_, rfl, by simp⟩
              | _ => rw [hq] at h; cases h
          | _ => rw [hp] at h; cases h
        | _ => rw [hl] at h; cases h
      · rw [if_neg hm] at h ⊢
        simp only [pure, Res.bind_ok] at h ⊢
        cases tail with
        | false => cases h; exact ⟨_, rfl, by simp⟩
        | true =>
          simp only [if_true] at h ⊢
          rw [putPad_buf] at h
          cases hq : Base64.putPad ((data.length + 2) / 3 * 3 - data.length) r.2.2 with
          | ok e2 => rw [hq] at h; cases h; exact ⟨_, rfl, by simp⟩
          | _ => rw [hq] at h; cases h
    | _ => rw [hc] at h; cases h

/-! ## Text that needs no escaping -/

/-- Printable ASCII without `"` and `\`. -/
def PlainText (t : Bytes) : Prop := ∀ c ∈ t, 32 ≤ c ∧ c < 128 ∧ c ≠ 0x22 ∧ c ≠ 0x5C

theorem body_plain (u8 : Bool) (d : Utf8.Dec) (t : Bytes) (h : PlainText t) : body u8 d t = t := by
  induction t with
  | nil => rw [body]
  | cons c t ih =>
    have hc := h c (by simp)
    have hs : shortEsc c = none := by
      unfold shortEsc
      rw [if_neg (by omega), if_neg (by omega), if_neg (by omega), if_neg (by omega), if_neg (by omega), if_neg (by omega)]
    rw [body, hs]
    dsimp only
    rw [if_neg (by omega), ih fun x hx => h x (by simp [hx])]

theorem flatMap_body_plain (u8 : Bool) (l : List Bytes) (h : PlainText l.flatten) :
    l.flatMap (body u8 Utf8.Dec.init) = l.flatten := by
  induction l with
  | nil => rfl
  | cons a l ih =>
    rw [List.flatMap_cons, List.flatten_cons]
    rw [List.flatten_cons] at h
    rw [body_plain u8 _ a fun c hc => h c (by simp [hc]), ih fun c hc => h c (by simp only [List.mem_append]; exact Or.inr hc)]

theorem plain_strOk (u8 : Bool) {t : Bytes} (h : PlainText t) : StrOk u8 t :=
  ⟨ascii_wf t fun b hb => (h b hb).2.1, Or.inr fun b hb => by have := h b hb; omega⟩

theorem plain_base64 {data t : Bytes} (hv : Bytes.Valid data) (h : Base64.encode64 data = .ok t) : PlainText t := by
  obtain ⟨b, k, rfl, -, hb⟩ := C14_alphabet data t hv h
  intro c hc
  rcases List.mem_append.1 hc with hc | hc
  · have := hb c hc; omega
  · have := List.eq_of_mem_replicate hc; omega

theorem plain_base64url {data t : Bytes} (hv : Bytes.Valid data) (h : Base64.encodeUrl data = .ok t) : PlainText t := by
  intro c hc
  have := (C15_alphabet data t hv h).2 c hc
  omega

theorem plain_url {data : Bytes} (hv : Bytes.Valid data) : PlainText (BinEnc.urlEncode data) := by
  have key : ∀ b < 256, ∀ c ∈ BinEnc.urlEncByte b, 32 ≤ c ∧ c < 128 ∧ c ≠ 0x22 ∧ c ≠ 0x5C := by decide +kernel
  intro c hc
  obtain ⟨b, hb, hc⟩ := List.mem_flatMap.1 hc
  exact key b (hv b hb) c hc

/-- A printed string is read back, whatever follows. -/
theorem parse_string (u8 : Bool) (cfg : Cfg) (s rest : Bytes) (h : StrOk u8 s) :
    parse cfg (writeString u8 s ++ rest) = .ok (stringValue s, rest) := by
  have hf : Fits cfg (.str s) := ⟨by rw [NumsFit.eq_def]; trivial, by rw [DupFree.eq_def]; trivial⟩
  have := parse_grammar_own cfg (strVal u8 s h) hf (by intro n hn; cases hn) [] rest ws_nil
  rw [List.nil_append, interpV] at this
  exact this

theorem parse_string' (u8 : Bool) (cfg : Cfg) (s rest : Bytes) (h : StrOk u8 s)
    (hi : s ≠ infSign ∧ s ≠ 0x2D :: infSign) : parse cfg (writeString u8 s ++ rest) = .ok (.str s, rest) := by
  rw [parse_string u8 cfg s rest h, Trip.stringValue_str hi]

theorem plain_inf {t : Bytes} (h : PlainText t) : t ≠ infSign ∧ t ≠ 0x2D :: infSign := by
  constructor <;> (rintro rfl; have := h 0xE2 (by decide); omega)

/-! ## C128 -/

/-- The text of an encoder for some bytes, by the definitions of RFC 4648, RFC 3986 and UTF-8; `direct` is the bytes
themselves. -/
def textOf : Coder → Bytes → Bytes
  | .base64, d => Spec.base64 Spec.digit64 (fun n => List.replicate n 0x3D) d
  | .base64url, d => Spec.base64 Spec.digitUrl (fun _ => []) d
  | .url, d => d.flatMap fun c => if unreserved c then [c] else [0x25, hexchar' (c / 16), hexchar' (c % 16)]
  | .utf8, d => d.flatMap fun c => if c < 128 then [c] else [0xC0 + c / 64, 0x80 + c % 64]
  | .direct, d => d
where
  hexchar' (i : Nat) : Nat := if i < 10 then 48 + i else 55 + i

theorem textOf_url (d : Bytes) (hv : Bytes.Valid d) : textOf .url d = BinEnc.urlEncode d := by
  have key : ∀ c < 256, (if unreserved c then [c] else [0x25, textOf.hexchar' (c / 16), textOf.hexchar' (c % 16)]) =
      BinEnc.urlEncByte c := by decide +kernel
  rw [textOf, BinEnc.urlEncode]
  induction d with
  | nil => rfl
  | cons c d ih =>
    rw [List.flatMap_cons, List.flatMap_cons, ih fun x hx => hv x (by simp [hx]), key c (hv c (by simp))]

theorem textOf_utf8 (d : Bytes) (hv : Bytes.Valid d) : textOf .utf8 d = Utf8.encode d := by
  rw [textOf, Utf8.encode]
  induction d with
  | nil => rfl
  | cons c d ih =>
    rw [List.flatMap_cons, List.flatMap_cons, ih fun x hx => hv x (by simp [hx])]
    have := hv c (by simp)
    by_cases h : c < 128
    · rw [if_pos h, Utf8.wide1 h]
    · rw [if_neg h, Utf8.wide2 (by omega) (by omega)]

/-- What the encoder passes on, all together, is its text. -/
theorem chunks_text (e : Coder) (d : Bytes) (hv : Bytes.Valid d) (he : e ≠ .utf8) :
    ∃ l, e.chunks d = .ok l ∧ l.flatten = textOf e d := by
  cases e with
  | base64 => exact chunks64_flatten _ _ _ _ (C14_encode_rfc4648 d hv)
  | base64url => exact chunks64_flatten _ _ _ _ (C15_encode_rfc4648 d hv)
  | url => exact ⟨_, rfl, by rw [textOf_url d hv]; exact List.flatten_eq_flatMap ▸ (by simp [BinEnc.urlEncode, List.flatMap])⟩
  | utf8 => exact absurd rfl he
  | direct => exact ⟨_, rfl, by simp [textOf]⟩

/-- Decoding the text of an encoder gives the bytes. -/
theorem decode_text (e : Coder) (d : Bytes) (hv : Bytes.Valid d) :
    ∃ b, getBinary (.str (textOf e d)) e = .ok b ∧ b.getString = d := by
  have dir : textOf e d = [] → d = [] := by
    intro h
    cases e with
    | base64 =>
      have := C14_round_trip d hv
      rw [C14_encode_rfc4648 d hv, Res.bind_ok] at this
      rw [textOf] at h
      rw [h] at this
      cases this; rfl
    | base64url =>
      have := C15_round_trip d hv
      rw [C15_encode_rfc4648 d hv, Res.bind_ok] at this
      rw [textOf] at h
      rw [h] at this
      cases this; rfl
    | url =>
      have := C16_round_trip d hv
      rw [← textOf_url d hv, h] at this
      have h2 : BinEnc.urlDecode [] = .ok [] := C16_round_trip [] (by intro _ h; cases h)
      rw [h2] at this
      cases this; rfl
    | utf8 =>
      have := C17_round_trip d hv
      rw [BinEnc.utf8Encode, ← textOf_utf8 d hv, h] at this
      have h2 : BinEnc.utf8Decode [] = .ok [] := by decide
      rw [h2] at this
      cases this; rfl
    | direct => exact h
  unfold getBinary
  rw [Node.getString]
  by_cases h0 : textOf e d = []
  · rw [if_pos h0]
    exact ⟨_, rfl, (dir h0).symm⟩
  · rw [if_neg h0, Node.isBin, if_pos rfl]
    cases e with
    | base64 =>
      have := C14_round_trip d hv
      rw [C14_encode_rfc4648 d hv, Res.bind_ok] at this
      rw [Coder.decode]
      split
      · rename_i h
        rw [textOf] at h
        rw [Base64.decode64, if_pos h] at this
        cases this
        exact ⟨_, rfl, rfl⟩
      · exact ⟨.bin .base64 d, by rw [textOf, this]; rfl, rfl⟩
    | base64url =>
      have := C15_round_trip d hv
      rw [C15_encode_rfc4648 d hv, Res.bind_ok] at this
      exact ⟨.bin .base64 d, by rw [textOf, Coder.decode, this]; rfl, rfl⟩
    | url => exact ⟨.bin .url d, by rw [textOf_url d hv, Coder.decode, C16_round_trip d hv]; rfl, rfl⟩
    | utf8 =>
      exact ⟨.bin .utf8 d, by rw [textOf_utf8 d hv, Coder.decode, ← BinEnc.utf8Encode, C17_round_trip d hv]; rfl, rfl⟩
    | direct => exact ⟨_, rfl, rfl⟩

theorem unproxy_isBin (v : Node) : v.unproxy.isBin = v.isBin := by
  induction v with
  | keyed v ih => rw [Node.unproxy, ih, Node.isBin]
  | _ => rfl
theorem unproxy_getString (v : Node) : v.unproxy.getString = v.getString := by
  induction v with
  | keyed v ih => rw [Node.unproxy, ih, Node.getString]
  | _ => rfl

theorem serialize_bin (u8 : Bool) {v : Node} {e : Coder} {d : Bytes} (h : v.unproxy = .bin e d) :
    serializeString u8 v = e.chunks d >>= fun l => .ok (0x22 :: (l.flatMap (Ser.body u8 Utf8.Dec.init) ++ [0x22])) := by
  have h1 : v.isBin = true := by rw [← unproxy_isBin, h]; rfl
  have h2 : v.getString = d := by rw [← unproxy_getString, h]; rfl
  unfold serializeString
  rw [if_pos h1, h, h2]
  rfl

/-- C128: a binary value with the base64, base64url or url encoding prints as the JSON string with the text of that
encoding, although it is written in chunks; the parser reads that string, and `getBinary` with the encoding gives the bytes
back. Holds with and without a key, in both output modes, whatever follows. -/
theorem C128_ascii (u8 : Bool) (cfg : Cfg) (v : Node) (e : Coder) (d rest : Bytes) (hv : Bytes.Valid d)
    (h : v.unproxy = .bin e d) (he : e = .base64 ∨ e = .base64url ∨ e = .url) :
    serializeString u8 v = .ok (0x22 :: (textOf e d ++ [0x22])) ∧
    ∃ j b, parse cfg ((0x22 :: (textOf e d ++ [0x22])) ++ rest) = .ok (j, rest) ∧
      getBinary (ofParsed j) e = .ok b ∧ b.getString = d := by
  have hp : PlainText (textOf e d) := by
    rcases he with rfl | rfl | rfl
    · exact plain_base64 hv (C14_encode_rfc4648 d hv)
    · exact plain_base64url hv (C15_encode_rfc4648 d hv)
    · rw [textOf_url d hv]; exact plain_url hv
  obtain ⟨l, hl, hf⟩ := chunks_text e d hv (by rcases he with rfl | rfl | rfl <;> simp)
  have hw : writeString u8 (textOf e d) = 0x22 :: (textOf e d ++ [0x22]) := by rw [writeString, body_plain u8 _ _ hp]
  refine ⟨?_, ?_⟩
  · rw [serialize_bin u8 h, hl, Res.bind_ok, flatMap_body_plain u8 l (by rw [hf]; exact hp), hf]
  · obtain ⟨b, hb, hd⟩ := decode_text e d hv
    exact ⟨.str (textOf e d), b, by rw [← hw]; exact parse_string' u8 cfg _ rest (plain_strOk u8 hp) (plain_inf hp), hb, hd⟩

example : (Node.keyed (.bin .url [0, 0x22, 0xFF])).unproxy = .bin .url [0, 0x22, 0xFF] ∧ Bytes.Valid [0, 0x22, 0xFF] :=
  ⟨rfl, by decide⟩
example : serializeString false (.keyed (.bin .base64 (List.replicate 300 0xFB))) =
    .ok (0x22 :: (textOf .base64 (List.replicate 300 0xFB) ++ [0x22])) := by
  rw [(C128_ascii false {} (.keyed (.bin .base64 (List.replicate 300 0xFB))) .base64 (List.replicate 300 0xFB) []
    (fun b hb => by have := List.eq_of_mem_replicate hb; omega) rfl (Or.inl rfl)).1]

/-- C128: `toString` gives the text of the encoding, for all five encodings and all bytes. -/
theorem C128_toString (v : Node) (e : Coder) (d : Bytes) (hv : Bytes.Valid d) (h : v.unproxy = .bin e d) :
    valueToString v = .ok (textOf e d) ∧ ∃ b, getBinary (.str (textOf e d)) e = .ok b ∧ b.getString = d := by
  refine ⟨?_, decode_text e d hv⟩
  have h1 : v.isBin = true := by rw [← unproxy_isBin, h]; rfl
  have h2 : v.getString = d := by rw [← unproxy_getString, h]; rfl
  unfold valueToString
  rw [if_pos h1, h]
  have hg : ∃ b, getBinary v e = .ok b ∧ b.getString = d := by
    unfold getBinary
    rw [h1, h2]
    by_cases h0 : d = []
    · rw [if_pos h0]; exact ⟨_, rfl, h0.symm⟩
    · rw [if_neg h0]; exact ⟨_, rfl, h2⟩
  obtain ⟨b, hb, hd⟩ := hg
  show (getBinary v e >>= fun b => e.encode b.getString) = _
  rw [hb, Res.bind_ok, hd]
  by_cases he : e = .utf8
  · subst he
    rw [Coder.encode, textOf_utf8 d hv]; rfl
  · obtain ⟨l, hl, hf⟩ := chunks_text e d hv he
    cases e with
    | utf8 => exact absurd rfl he
    | _ => rw [Coder.encode, hl, Res.bind_ok, ← hf]; rfl; exact he

example : valueToString (.bin .utf8 [0x41, 0xFF]) = .ok [0x41, 0xC3, 0xBF] := by decide

/-- C128: asking a binary value for its bytes gives them unchanged, whatever encoding is asked for. -/
theorem C128_as_is (v : Node) (e : Coder) (h : v.isBin = true) :
    ∃ b, getBinary v e = .ok b ∧ b.getString = v.getString := by
  unfold getBinary
  by_cases h0 : v.getString = []
  · rw [if_pos h0]; exact ⟨_, rfl, h0.symm⟩
  · rw [if_neg h0, h]; exact ⟨_, rfl, rfl⟩

example : (makeValue (.keyed (.bin .base64 [1, 2]))).isBin = true := rfl

/-! ## C128: the UTF-8 encoding -/

/-- What the 256 byte buffer loses: a byte from 128 up takes two bytes of text, and when the first of them is the last
of a chunk the byte is gone. `o` is the fill of the buffer. -/
def survive : Nat → Bytes → Bytes
  | _, [] => []
  | o, b :: bs =>
    if b < 128 then b :: survive (if o = 255 then 0 else o + 1) bs
    else if o = 255 then survive 1 bs
    else b :: survive (if o = 254 then 0 else o + 2) bs

theorem survive_mem (bs : Bytes) : ∀ o, ∀ b ∈ survive o bs, b ∈ bs := by
  induction bs with
  | nil => intro o b h; exact h
  | cons c bs ih =>
    intro o b h
    rw [survive] at h
    split at h
    · rcases List.mem_cons.1 h with rfl | h
      · simp
      · exact List.mem_cons_of_mem _ (ih _ _ h)
    · split at h
      · exact List.mem_cons_of_mem _ (ih _ _ h)
      · rcases List.mem_cons.1 h with rfl | h
        · simp
        · exact List.mem_cons_of_mem _ (ih _ _ h)

theorem chunks256_text (u8 : Bool) (ws : Bytes) (hv : Bytes.Valid ws) : ∀ (buf p : Bytes), buf.length < 256 →
    (∃ d, ∀ t, body u8 Utf8.Dec.init (buf ++ t) = p ++ body u8 d t) →
    (chunks256 buf (Utf8.encode ws)).flatMap (body u8 Utf8.Dec.init) =
      p ++ (survive buf.length ws).flatMap (chr u8) := by
  have h00 : ∃ d, ∀ t, body u8 Utf8.Dec.init ([] ++ t) = [] ++ body u8 d t := ⟨_, fun _ => rfl⟩
  induction ws with
  | nil =>
    intro buf p _ ⟨d, hd⟩
    have := hd []
    rw [body, List.append_nil, List.append_nil] at this
    rw [Utf8.encode, List.flatMap_nil, chunks256, survive, List.flatMap_nil, List.append_nil]
    split
    · rename_i h; subst h; rw [body] at this; rw [List.flatMap_nil]; exact this
    · rw [List.flatMap_cons, List.flatMap_nil, List.append_nil]; exact this
  | cons w ws ih =>
    intro buf p hl ⟨d, hd⟩
    have hw : w < 256 := hv w (by simp)
    have ih := ih fun x hx => hv x (by simp [hx])
    rw [Utf8.encode_cons, survive]
    by_cases h1 : w < 128
    · rw [if_pos h1, Utf8.wide1 h1, List.singleton_append, chunks256, List.flatMap_cons]
      obtain ⟨d', hd'⟩ := body_wide u8 w (by omega) d
      rw [Utf8.wide1 h1] at hd'
      have hn : ∀ t, body u8 Utf8.Dec.init (buf ++ [w] ++ t) = (p ++ chr u8 w) ++ body u8 d' t := by
        intro t
        rw [List.append_assoc, hd, hd', List.append_assoc]
      by_cases h2 : buf.length + 1 = 256
      · rw [if_pos h2, if_pos (by omega), List.flatMap_cons, ih [] [] (by simp) h00]
        have := hn []
        rw [List.append_nil, body, List.append_nil] at this
        rw [this]
        simp
      · rw [if_neg h2, if_neg (by omega), ih (buf ++ [w]) (p ++ chr u8 w) (by simp; omega) ⟨d', hn⟩]
        simp
    · rw [if_neg h1, Utf8.wide2 (by omega) (by omega), List.cons_append, List.cons_append, List.nil_append, chunks256]
      by_cases h2 : buf.length + 1 = 256
      · rw [if_pos h2, if_pos (by omega), List.flatMap_cons, chunks256, if_neg (by simp), List.nil_append]
        have e1 : body u8 Utf8.Dec.init (buf ++ [192 + w / 64]) = p := by
          rw [hd, body_big _ _ _ _ (by omega), Utf8.Dec.step_lead2 _ _ (by omega), body]
          simp
        have e2 : ∃ d, ∀ t, body u8 Utf8.Dec.init ([128 + w % 64] ++ t) = [] ++ body u8 d t := by
          refine ⟨(Utf8.Dec.init.step (128 + w % 64)).1, fun t => ?_⟩
          rw [List.singleton_append, body_big _ _ _ _ (by omega), Utf8.Dec.step_cont _ _ (by omega)]
          simp [Utf8.Dec.init]
        rw [e1, ih [128 + w % 64] [] (by simp) e2]
        rfl
      · rw [if_neg h2, if_neg (by omega), chunks256, List.flatMap_cons]
        obtain ⟨d', hd'⟩ := body_wide u8 w (by omega) d
        rw [Utf8.wide2 (by omega) (by omega)] at hd'
        have hn : ∀ t, body u8 Utf8.Dec.init (buf ++ [192 + w / 64] ++ [128 + w % 64] ++ t) =
            (p ++ chr u8 w) ++ body u8 d' t := by
          intro t
          rw [List.append_assoc, List.append_assoc, hd, List.append_assoc]
          congr 1
          exact hd' t
        by_cases h3 : (buf ++ [192 + w / 64]).length + 1 = 256
        · rw [if_pos h3]
          rw [List.length_append, List.length_singleton] at h3
          rw [if_pos (by omega), List.flatMap_cons, ih [] [] (by simp) h00]
          have := hn []
          rw [List.append_nil, body, List.append_nil] at this
          rw [this]
          simp
        · rw [if_neg h3]
          rw [List.length_append, List.length_singleton] at h3
          rw [if_neg (by omega), ih (buf ++ [192 + w / 64] ++ [128 + w % 64]) (p ++ chr u8 w) (by simp; omega) ⟨d', hn⟩]
          simp

theorem body_encode (u8 : Bool) (ws : Bytes) (hv : Bytes.Valid ws) : ∀ d, body u8 d (Utf8.encode ws) = ws.flatMap (chr u8) := by
  induction ws with
  | nil => intro d; rfl
  | cons w ws ih =>
    intro d
    have hw : w < 256 := hv w (by simp)
    obtain ⟨d', hd'⟩ := body_wide u8 w (by omega) d
    rw [Utf8.encode_cons, hd', ih (fun x hx => hv x (by simp [hx])), List.flatMap_cons]

theorem encode_low (ws : Bytes) (hv : Bytes.Valid ws) : ∀ b ∈ Utf8.encode ws, b < 0xC4 := by
  intro b hb
  obtain ⟨w, hw, hb⟩ := List.mem_flatMap.1 hb
  have := hv w hw
  by_cases h : w < 128
  · rw [Utf8.wide1 h] at hb; simp at hb; omega
  · rw [Utf8.wide2 (by omega) (by omega)] at hb; simp at hb; omega

/-- C128: the UTF-8 encoding exactly. The printed text is the text of the bytes that survive the chunk borders, and
these are what comes back. -/
theorem C128_utf8_exact (u8 : Bool) (cfg : Cfg) (v : Node) (d rest : Bytes) (hv : Bytes.Valid d)
    (h : v.unproxy = .bin .utf8 d) :
    ∃ t j b, serializeString u8 v = .ok t ∧ parse cfg (t ++ rest) = .ok (j, rest) ∧
      getBinary (ofParsed j) .utf8 = .ok b ∧ b.getString = survive 0 d := by
  have hs : Bytes.Valid (survive 0 d) := fun b hb => hv b (survive_mem d 0 b hb)
  have hb := encode_low _ hs
  have ht : serializeString u8 v = .ok (writeString u8 (Utf8.encode (survive 0 d))) := by
    rw [serialize_bin u8 h, Coder.chunks, Res.bind_ok, chunks256_text u8 d hv [] [] (by simp) ⟨_, fun _ => rfl⟩, writeString,
      body_encode u8 _ hs]
    rfl
  have hok : StrOk u8 (Utf8.encode (survive 0 d)) := ⟨C17_wellformed _ hs, Or.inr fun b hx => by have := hb b hx; omega⟩
  obtain ⟨b, hg, hd⟩ := decode_text .utf8 _ hs
  rw [textOf_utf8 _ hs] at hg
  refine ⟨_, .str (Utf8.encode (survive 0 d)), b, ht, parse_string' u8 cfg _ rest hok ?_, hg, hd⟩
  constructor <;> (intro e; rw [e] at hb; have := hb 0xE2 (by decide); omega)

theorem survive_length (bs : Bytes) : ∀ o, (survive o bs).length ≤ bs.length := by
  induction bs with
  | nil => intro o; simp [survive]
  | cons c bs ih =>
    intro o
    rw [survive]
    split
    · have := ih (if o = 255 then 0 else o + 1); simp; exact this
    · split
      · have := ih 1; simp; omega
      · have := ih (if o = 254 then 0 else o + 2); simp; exact this

theorem survive_iff (bs : Bytes) (hv : Bytes.Valid bs) : ∀ o, o < 256 → (survive o bs = bs ↔
    ∀ pre b post, bs = pre ++ b :: post → 128 ≤ b → (o + (textOf .utf8 pre).length) % 256 ≠ 255) := by
  induction bs with
  | nil => intro o _; simp [survive]
  | cons c bs ih =>
    intro o ho
    have ih := ih fun x hx => hv x (by simp [hx])
    have hc : c < 256 := hv c (by simp)
    have hcons : ∀ pre : Bytes, (textOf .utf8 (c :: pre)).length = (if c < 128 then 1 else 2) + (textOf .utf8 pre).length := by
      intro pre
      rw [textOf, textOf, List.flatMap_cons, List.length_append]
      split <;> rfl
    have split_iff : ∀ k o', o' < 256 → k = (if c < 128 then 1 else 2) → (∀ n, (o' + n) % 256 = (o + (k + n)) % 256) →
        (128 ≤ c → o ≠ 255) → (survive o' bs = bs ↔
        ∀ pre b post, c :: bs = pre ++ b :: post → 128 ≤ b → (o + (textOf .utf8 pre).length) % 256 ≠ 255) := by
      intro k o' ho' hk hn h255
      rw [ih o' ho']
      constructor
      · intro h pre b post e hb
        cases pre with
        | nil =>
          rw [List.nil_append] at e
          injection e with e1 e2
          subst e1
          have := h255 hb
          simp [textOf]; omega
        | cons a pre =>
          rw [List.cons_append] at e
          injection e with e1 e2
          subst e1
          have := h pre b post e2 hb
          rw [hcons, ← hk, ← hn]
          exact this
      · intro h pre b post e hb
        have := h (c :: pre) b post (by rw [e]; rfl) hb
        rw [hcons, ← hk, ← hn] at this
        exact this
    rw [survive]
    by_cases h1 : c < 128
    · rw [if_pos h1, ← split_iff 1 (if o = 255 then 0 else o + 1) (by split <;> omega) (by rw [if_pos h1])
        (by intro n; split <;> omega) (by omega)]
      simp
    · rw [if_neg h1]
      by_cases h2 : o = 255
      · rw [if_pos h2]
        constructor
        · intro e
          have := survive_length bs 1
          rw [e, List.length_cons] at this
          omega
        · intro h
          have := h [] c bs rfl (by omega)
          simp [textOf, h2] at this
      · rw [if_neg h2, ← split_iff 2 (if o = 254 then 0 else o + 2) (by split <;> omega) (by rw [if_neg h1])
          (by intro n; split <;> omega) (fun _ => h2)]
        simp

/-- C128 for the UTF-8 encoding: the bytes come back exactly when no byte from 128 up has its first text byte at the
end of a 256 byte chunk, in particular when the text has at most 256 bytes. Missing: the bytes at the chunk borders
(violation below). -/
theorem C128_utf8_partial (u8 : Bool) (cfg : Cfg) (v : Node) (d rest : Bytes) (hv : Bytes.Valid d)
    (h : v.unproxy = .bin .utf8 d) :
    (∃ t j b, serializeString u8 v = .ok t ∧ parse cfg (t ++ rest) = .ok (j, rest) ∧
      getBinary (ofParsed j) .utf8 = .ok b ∧ b.getString = d) ↔
    ∀ pre b post, d = pre ++ b :: post → 128 ≤ b → (textOf .utf8 pre).length % 256 ≠ 255 := by
  have hs := survive_iff d hv 0 (by omega)
  simp only [Nat.zero_add] at hs
  rw [← hs]
  obtain ⟨t, j, b, h1, h2, h3, h4⟩ := C128_utf8_exact u8 cfg v d rest hv h
  constructor
  · rintro ⟨t', j', b', k1, k2, k3, k4⟩
    rw [h1] at k1; cases k1
    rw [h2] at k2; cases k2
    rw [h3] at k3; cases k3
    rw [← h4, k4]
  · intro e
    exact ⟨t, j, b, h1, h2, h3, by rw [h4, e]⟩

example : (∀ pre b post, [0x41, 0xFF] = pre ++ b :: post → 128 ≤ b → (textOf .utf8 pre).length % 256 ≠ 255) := by
  have := (survive_iff [0x41, 0xFF] (by decide) 0 (by omega)).1 (by decide)
  simpa using this

/-- C128 for the UTF-8 encoding of at most 256 bytes of text. -/
theorem C128_utf8_short_partial (u8 : Bool) (cfg : Cfg) (v : Node) (d rest : Bytes) (hv : Bytes.Valid d)
    (h : v.unproxy = .bin .utf8 d) (hl : (textOf .utf8 d).length ≤ 256) :
    ∃ t j b, serializeString u8 v = .ok t ∧ parse cfg (t ++ rest) = .ok (j, rest) ∧
      getBinary (ofParsed j) .utf8 = .ok b ∧ b.getString = d := by
  refine (C128_utf8_partial u8 cfg v d rest hv h).2 fun pre b post e hb => ?_
  rw [e, textOf, List.flatMap_append, List.flatMap_cons, if_neg (by omega)] at hl
  rw [textOf]
  simp at hl ⊢
  omega

example : (textOf .utf8 (List.replicate 128 0xFF)).length ≤ 256 := by decide +kernel

/-- C128 does not hold for the UTF-8 encoding: of 255 letters and one byte 0xFF the last byte is lost when the value is
printed, because the two bytes of its text go to different chunks and each chunk is decoded on its own. -/
theorem C128_violation_utf8 : ∃ t j b, serializeString true (.bin .utf8 (List.replicate 255 0x41 ++ [0xFF])) = .ok t ∧
    parse {} t = .ok (j, []) ∧ getBinary (ofParsed j) .utf8 = .ok b ∧ b.getString = List.replicate 255 0x41 := by
  have hv : Bytes.Valid (List.replicate 255 0x41 ++ [0xFF]) := by decide +kernel
  obtain ⟨t, j, b, h1, h2, h3, h4⟩ := C128_utf8_exact true {} (.bin .utf8 (List.replicate 255 0x41 ++ [0xFF])) _ [] hv rfl
  refine ⟨t, j, b, h1, by rw [List.append_nil] at h2; exact h2, h3, ?_⟩
  rw [h4]
  decide +kernel

/-! ## C128: no encoding -/

/-- C128 for the direct encoding: the bytes come back when they are well-formed UTF-8 (without characters above U+FFFF
in escaped output) other than "∞" and "-∞". Missing: all other bytes (violations below). -/
theorem C128_direct_partial (u8 : Bool) (cfg : Cfg) (v : Node) (d rest : Bytes) (h : v.unproxy = .bin .direct d)
    (hok : StrOk u8 d) (hi : d ≠ infSign ∧ d ≠ 0x2D :: infSign) :
    serializeString u8 v = .ok (writeString u8 d) ∧
    ∃ j b, parse cfg (writeString u8 d ++ rest) = .ok (j, rest) ∧ getBinary (ofParsed j) .direct = .ok b ∧ b.getString = d := by
  refine ⟨?_, .str d, ?_⟩
  · rw [serialize_bin u8 h, Coder.chunks, Res.bind_ok, writeString]; simp
  · rw [parse_string' u8 cfg d rest hok hi]
    unfold getBinary
    rw [ofParsed, Node.getString]
    by_cases h0 : d = []
    · rw [if_pos h0]; exact ⟨_, rfl, rfl, h0.symm⟩
    · rw [if_neg h0]; exact ⟨_, rfl, rfl, rfl⟩

example : StrOk false [0xC3, 0xA9] ∧ ([0xC3, 0xA9] ≠ infSign ∧ [0xC3, 0xA9] ≠ 0x2D :: infSign) :=
  ⟨⟨.two (by decide) (by decide) .nil, Or.inr (by decide)⟩, by decide⟩

/-- C128 does not hold for the direct encoding: the byte 0xC3 alone is dropped from the text. -/
theorem C128_violation_direct : serializeString true (.bin .direct [0x41, 0xC3]) = .ok (ascii "\"A\"") ∧
    serializeString false (.bin .direct [0x41, 0xC3]) = .ok (ascii "\"A\"") := by decide +kernel
/-- C128 does not hold for the direct encoding of the bytes of "∞": they come back as a number, whose bytes are none. -/
theorem C128_violation_infinity : (serializeString true (.bin .direct infSign) >>= parse {}) = .ok (.num (.inf false), []) ∧
    getBinary (ofParsed (.num (.inf false))) .direct = .ok (.str []) := by decide +kernel

/-! ## C129: the encoding is remembered -/

/-- C129: bytes decoded from a text with the base64, url or UTF-8 encoding remember that encoding, `getEncoding` of the
`Binary` returns it and `toString` gives the text again. -/
theorem C129_remembers_partial (e : Coder) (d : Bytes) (hv : Bytes.Valid d) (h0 : d ≠ [])
    (he : e = .base64 ∨ e = .url ∨ e = .utf8) :
    getBinary (.str (textOf e d)) e = .ok (.bin e d) ∧ binaryEncoding (.bin e d) = .ok e ∧
      valueToString (.bin e d) = .ok (textOf e d) := by
  refine ⟨?_, rfl, (C128_toString (.bin e d) e d hv rfl).1⟩
  obtain ⟨b, hb, hd⟩ := decode_text e d hv
  rw [hb]
  unfold getBinary at hb
  rw [Node.getString] at hb
  by_cases ht : textOf e d = []
  · rw [if_pos ht] at hb; cases hb; exact absurd hd.symm h0
  · rw [if_neg ht, Node.isBin, if_pos rfl] at hb
    rcases he with rfl | rfl | rfl
    · rw [Coder.decode] at hb
      split at hb
      · cases hb; exact absurd hd.symm h0
      · cases h : Base64.decode64 (textOf .base64 d) with
        | ok x => rw [h] at hb; cases hb; rw [Node.getString] at hd; rw [hd]
        | _ => rw [h] at hb; cases hb
    · rw [Coder.decode] at hb
      cases h : BinEnc.urlDecode (textOf .url d) with
      | ok x => rw [h] at hb; cases hb; rw [Node.getString] at hd; rw [hd]
      | _ => rw [h] at hb; cases hb
    · rw [Coder.decode] at hb
      cases h : BinEnc.utf8Decode (textOf .utf8 d) with
      | ok x => rw [h] at hb; cases hb; rw [Node.getString] at hd; rw [hd]
      | _ => rw [h] at hb; cases hb

example : Bytes.Valid [0xFB, 0xFF] ∧ ([0xFB, 0xFF] : Bytes) ≠ [] := by decide

/-- C129: so a JSON text with such a string, decoded and printed again, is unchanged (base64 and url). -/
theorem C129_reprint_partial (u8 : Bool) (e : Coder) (d : Bytes) (hv : Bytes.Valid d)
    (he : e = .base64 ∨ e = .url) :
    (getBinary (.str (textOf e d)) e >>= serializeString u8) = .ok (0x22 :: (textOf e d ++ [0x22])) := by
  by_cases h0 : d = []
  · subst h0
    rcases he with rfl | rfl <;> (cases u8 <;> decide)
  · rw [(C129_remembers_partial e d hv h0 (by rcases he with rfl | rfl <;> simp)).1, Res.bind_ok]
    exact (C128_ascii u8 {} (.bin e d) e d [] hv rfl (by rcases he with rfl | rfl <;> simp)).1

/-- C129 does not hold for base64url: the decoder labels every value `base64` (base64.cpp:128), so the bytes come back as
base64 text with another alphabet and padding, for every non-empty text. -/
theorem C129_violation_base64url (u8 : Bool) (d : Bytes) (hv : Bytes.Valid d) (h0 : d ≠ []) :
    ∃ b, getBinary (.str (textOf .base64url d)) .base64url = .ok b ∧ binaryEncoding b = .ok .base64 ∧
      serializeString u8 b = .ok (0x22 :: (textOf .base64 d ++ [0x22])) := by
  obtain ⟨b, hb, hd⟩ := decode_text .base64url d hv
  refine ⟨b, hb, ?_⟩
  unfold getBinary at hb
  rw [Node.getString] at hb
  by_cases ht : textOf .base64url d = []
  · rw [if_pos ht] at hb; cases hb; exact absurd hd.symm h0
  · rw [if_neg ht, Node.isBin, if_pos rfl, Coder.decode] at hb
    cases h : Base64.decodeUrl (textOf .base64url d) with
    | ok x =>
      rw [h] at hb; cases hb
      rw [Node.getString] at hd; subst hd
      exact ⟨rfl, (C128_ascii u8 {} (.bin .base64 x) .base64 x [] hv rfl (Or.inl rfl)).1⟩
    | _ => rw [h] at hb; cases hb
/-- C129 does not hold for base64url: `"-w"` is printed as `"+w=="` after decoding. -/
theorem C129_violation_text : (getBinary (.str (ascii "-w")) .base64url >>= serializeString true) = .ok (ascii "\"+w==\"") := by
  decide +kernel

/-- C129: a binary value itself, without a key, has its encoding; with a key the printing functions find it. -/
theorem C129_lookup (v : Node) (e : Coder) (d : Bytes) (h : v.unproxy = .bin e d) : getEncoding v.unproxy = .ok e := by
  rw [h]; rfl

example : (Node.keyed (.bin .utf8 [1])).unproxy = .bin .utf8 [1] := rfl

/-- C129: text without an encoding counts as direct. -/
theorem C129_direct (v : Node) (h : v.isBin = false) : getEncoding v = .ok .direct := by
  unfold getEncoding; rw [h]; rfl

example : (Node.keyed (.str (ascii "x"))).isBin = false := rfl

/-- C129 does not hold for a binary value that is a member of an object: the `Binary` keeps the keyed proxy and
`Binary::getEncoding` reads it as a `StringValue` (undefined, binary.cpp:14-16, stringValue.cpp:115). -/
theorem C129_violation_keyed (e e' : Coder) (d : Bytes) (h0 : d ≠ []) :
    ∃ b, getBinary (.keyed (.bin e d)) e' = .ok b ∧ binaryEncoding b = .ub := by
  refine ⟨.keyed (.bin e d), ?_, rfl⟩
  unfold getBinary
  rw [if_neg (by simpa [Node.getString] using h0)]
  rfl
/-- C129 does not hold for a binary value wrapped by `makeValue`, with or without a key: printing it and `toString` read
the wrapper as a `StringValue` (undefined, serializer.h:169, value.cpp:76). -/
theorem C129_violation_wrapped (u8 : Bool) (e : Coder) (d : Bytes) (v : Node) (h : v.unproxy = .bin e d) :
    serializeString u8 (makeValue v) = .ub ∧ valueToString (makeValue v) = .ub ∧
      serializeString u8 (.keyed (makeValue v)) = .ub := by
  unfold makeValue
  rw [h]
  exact ⟨rfl, rfl, rfl⟩

end Imt.Props
