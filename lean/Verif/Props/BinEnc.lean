import Verif.Lemmas.Base64
import Verif.Lemmas.Utf8Spec
import Verif.Model.BinEnc
/-! # Properties of the binary encodings: C14 – C17, C69 -/
namespace Imt.Props
open Imt

/-! ## Base64 -/

/-- C14: the encoder (with its 256 byte buffer) writes exactly the RFC 4648 text and never leaves its buffer. -/
theorem C14_encode_rfc4648 (data : Bytes) (hv : Bytes.Valid data) :
    Base64.encode64 data = .ok (Spec.base64 Spec.digit64 (fun n => List.replicate n 0x3D) data) := by
  have := Base64.encodeCore_eq Base64.lookup64 true data hv
  simpa [Base64.encode64] using this

/-- C14: the length of the text is `4 * ceil(n / 3)`. -/
theorem C14_length (data text : Bytes) (hv : Bytes.Valid data) (h : Base64.encode64 data = .ok text) :
    text.length = (data.length + 2) / 3 * 4 := by
  rw [C14_encode_rfc4648 data hv] at h
  injection h with h; subst h
  exact Base64.base64_pad_length _ _ _

/-- C14: only the alphabet of RFC 4648 and `=` are used, `=` only as the final one or two characters. -/
theorem C14_alphabet (data text : Bytes) (hv : Bytes.Valid data) (h : Base64.encode64 data = .ok text) :
    ∃ body k, text = body ++ List.replicate k 0x3D ∧ k ≤ 2 ∧
      ∀ c ∈ body, (65 ≤ c ∧ c ≤ 90) ∨ (97 ≤ c ∧ c ≤ 122) ∨ (48 ≤ c ∧ c ≤ 57) ∨ c = 43 ∨ c = 47 := by
  rw [C14_encode_rfc4648 data hv] at h
  injection h with h; subst h
  refine ⟨_, _, Base64.base64_pad_eq _ _ _, by omega, ?_⟩
  intro c hc
  obtain ⟨i, hi, rfl⟩ := Base64.base64_mem _ data hv c hc
  unfold Spec.digit64; split; · omega
  split; · omega
  split; · omega
  split <;> omega

theorem digit64_ne_pad : ∀ i < 64, Spec.digit64 i ≠ 0x3D := by decide

/-- C14: decoding the text gives the bytes back. -/
theorem C14_round_trip (data : Bytes) (hv : Bytes.Valid data) :
    (Base64.encode64 data >>= Base64.decode64) = .ok data := by
  rw [C14_encode_rfc4648 data hv, Res.bind_ok]
  by_cases h0 : data = []
  · subst h0; decide
  have hpos : 0 < data.length := List.length_pos_iff.2 h0
  have hlen := Base64.base64_pad_length Spec.digit64 0x3D data
  have hnl := Base64.base64_nopad_length Spec.digit64 data
  rw [Base64.base64_pad_eq] at hlen ⊢
  have hmem := Base64.base64_mem Spec.digit64 data hv
  generalize hB : Spec.base64 Spec.digit64 (fun _ => []) data = B at hlen hnl hmem ⊢
  obtain ⟨c', hdec⟩ := Base64.decLoop_spec Base64.table64 data hv (B.length + 1) 0 rfl ⟨[], 0⟩ (by simp; omega)
  rw [hB] at hdec
  have hlast : B.getD (B.length - 1) 0 ≠ 0x3D := by
    have hBpos : B.length - 1 < B.length := by omega
    have : B.getD (B.length - 1) 0 = B[B.length - 1] := by simp [List.getD, hBpos]
    rw [this]
    obtain ⟨i, hi, e⟩ := hmem _ (List.getElem_mem hBpos)
    rw [e]; exact digit64_ne_pad i hi
  have fin : ∀ k, k = (3 - data.length % 3) % 3 →
      Base64.decodeCommon (Base64.mkTable Base64.chars64) B.length ((B.length + k) * 3 / 4 - k)
        (B ++ List.replicate k 0x3D) = .ok data := by
    intro k hk
    unfold Base64.decodeCommon
    rw [List.take_left, hdec]
    simp only [Res.bind_ok, List.nil_append]
    have : (B.length + k) * 3 / 4 - k = data.length := by
      have : data.length % 3 = 0 ∨ data.length % 3 = 1 ∨ data.length % 3 = 2 := by omega
      rcases this with h | h | h <;> rw [h] at hk <;> simp at hk <;> omega
    rw [this, if_neg (by omega), if_neg (by omega), List.take_length]
  have hlt : (3 - data.length % 3) % 3 < 3 := by omega
  generalize hk : (3 - data.length % 3) % 3 = k at hlen hlt ⊢
  have hfin := fin k hk.symm
  unfold Base64.decode64
  simp only [List.length_append, List.length_replicate] at hlen ⊢
  rw [if_neg (by rw [Base64.and3]; omega)]
  match k, hlt with
  | 0, _ =>
    simp only [List.replicate_zero, List.append_nil, Nat.add_zero, Nat.sub_zero] at hfin ⊢
    simp only [if_neg hlast, Nat.sub_zero]
    exact hfin
  | 1, _ =>
    have e1 : (B ++ List.replicate 1 0x3D).getD (B.length + 1 - 1) 0 = 0x3D := by simp [List.getD]
    have e2 : (B ++ List.replicate 1 0x3D).getD (B.length + 1 - 1 - 1) 0 = B.getD (B.length - 1) 0 := by
      simp only [List.getD, Nat.add_sub_cancel]
      rw [List.getElem?_append_left (by omega)]
    rw [if_pos e1, e2, if_neg hlast]
    exact hfin
  | 2, _ =>
    have e1 : (B ++ List.replicate 2 0x3D).getD (B.length + 2 - 1) 0 = 0x3D := by
      simp [List.getD, List.replicate]
    have e2 : (B ++ List.replicate 2 0x3D).getD (B.length + 2 - 1 - 1) 0 = 0x3D := by
      simp [List.getD, List.replicate]
    rw [if_pos e1, if_pos e2]
    exact hfin

example : Bytes.Valid [0, 255, 16, 77] := by decide
/-- Test (not a proof): `Man` is `TWFu`. -/
example : Base64.encode64 (ascii "Man") = .ok (ascii "TWFu") := by decide

/-- C15: the url variant writes the RFC 4648 section 5 text without padding. -/
theorem C15_encode_rfc4648 (data : Bytes) (hv : Bytes.Valid data) :
    Base64.encodeUrl data = .ok (Spec.base64 Spec.digitUrl (fun _ => []) data) := by
  have := Base64.encodeCore_eq Base64.lookupUrl false data hv
  simpa [Base64.encodeUrl] using this

/-- C15: decoding gives the bytes back, for every length (no padding needed). -/
theorem C15_round_trip (data : Bytes) (hv : Bytes.Valid data) :
    (Base64.encodeUrl data >>= Base64.decodeUrl) = .ok data := by
  rw [C15_encode_rfc4648 data hv, Res.bind_ok]
  have hnl := Base64.base64_nopad_length Spec.digitUrl data
  generalize hB : Spec.base64 Spec.digitUrl (fun _ => []) data = B at hnl ⊢
  unfold Base64.decodeUrl Base64.decodeCommon
  rw [List.take_length]
  by_cases h0 : data = []
  · subst h0; simp only [Spec.base64] at hB; subst hB; rfl
  have hpos : 0 < data.length := List.length_pos_iff.2 h0
  obtain ⟨c', hdec⟩ := Base64.decLoop_spec Base64.tableUrl data hv (B.length + 1) 0 rfl ⟨[], 0⟩ (by simp; omega)
  rw [hB] at hdec
  rw [hdec]
  simp only [Res.bind_ok, List.nil_append]
  have : B.length * 3 / 4 = data.length := by
    have : data.length % 3 = 0 ∨ data.length % 3 = 1 ∨ data.length % 3 = 2 := by omega
    rcases this with h | h | h <;> omega
  rw [this, if_neg (by omega), if_neg (by omega), List.take_length]

/-- C15: only URL-safe characters are used. -/
theorem C15_alphabet (data text : Bytes) (hv : Bytes.Valid data) (h : Base64.encodeUrl data = .ok text) :
    text.length = (data.length * 4 + 2) / 3 ∧
    ∀ c ∈ text, (65 ≤ c ∧ c ≤ 90) ∨ (97 ≤ c ∧ c ≤ 122) ∨ (48 ≤ c ∧ c ≤ 57) ∨ c = 45 ∨ c = 95 := by
  rw [C15_encode_rfc4648 data hv] at h
  injection h with h; subst h
  refine ⟨Base64.base64_nopad_length _ _, ?_⟩
  intro c hc
  obtain ⟨i, hi, rfl⟩ := Base64.base64_mem _ data hv c hc
  unfold Spec.digitUrl; split; · omega
  split; · omega
  split; · omega
  split <;> omega

example : Bytes.Valid [0xFB, 0xFF, 0] ∧ Base64.encodeUrl [0xFB, 0xFF, 0] = .ok (ascii "-_8A") := by decide

/-! ## URL encoding -/

/-- RFC 3986 style output alphabet: the byte's own encoding is one unreserved character or a `%XX` triplet denoting the
byte. `hexVal` is the value of an upper case hexadecimal digit. -/
def hexVal (h : Nat) : Option Nat :=
  if 48 ≤ h ∧ h ≤ 57 then some (h - 48) else if 65 ≤ h ∧ h ≤ 70 then some (h - 55) else none

/-- Characters allowed unescaped: letters, digits and `-_.!~*'()`. -/
def unreserved (c : Nat) : Prop :=
  (65 ≤ c ∧ c ≤ 90) ∨ (97 ≤ c ∧ c ≤ 122) ∨ (48 ≤ c ∧ c ≤ 57) ∨ c ∈ [45, 95, 46, 33, 126, 42, 39, 40, 41]

instance (c : Nat) : Decidable (unreserved c) := inferInstanceAs (Decidable (_ ∨ _))

theorem urlEncByte_table : ∀ c < 256, (unreserved c ∧ BinEnc.urlEncByte c = [c]) ∨
    (¬ unreserved c ∧ ∃ h < 256, ∃ l < 256, BinEnc.urlEncByte c = [0x25, h, l] ∧
      hexVal h = some (c / 16) ∧ hexVal l = some (c % 16)) := by
  intro c hc
  have key : ∀ c < 256, (unreserved c ∧ BinEnc.urlEncByte c = [c]) ∨
    (¬ unreserved c ∧ BinEnc.urlEncByte c = [0x25, BinEnc.hexchar (c >>> 4), BinEnc.hexchar (c &&& 0xF)] ∧
      BinEnc.hexchar (c >>> 4) < 256 ∧ BinEnc.hexchar (c &&& 0xF) < 256 ∧
      hexVal (BinEnc.hexchar (c >>> 4)) = some (c / 16) ∧ hexVal (BinEnc.hexchar (c &&& 0xF)) = some (c % 16)) := by
    decide +kernel
  rcases key c hc with h | ⟨a, b, c1, c2, d, e⟩
  · exact Or.inl h
  · exact Or.inr ⟨a, _, c1, _, c2, b, d, e⟩

/-- C16: every byte is emitted as itself when unreserved, otherwise as `%` and its two hexadecimal digits. -/
theorem C16_encode_exact (s : Bytes) (hv : Bytes.Valid s) :
    ∃ parts : List Bytes, BinEnc.urlEncode s = parts.flatten ∧ parts.length = s.length ∧
      ∀ p ∈ s.zip parts, (unreserved p.1 ∧ p.2 = [p.1]) ∨
        (¬ unreserved p.1 ∧ ∃ h l, p.2 = [0x25, h, l] ∧ hexVal h = some (p.1 / 16) ∧ hexVal l = some (p.1 % 16)) := by
  refine ⟨s.map BinEnc.urlEncByte, by simp [BinEnc.urlEncode, List.flatMap], by simp, ?_⟩
  intro p hp
  rw [List.zip_map_right, List.mem_map] at hp
  obtain ⟨q, hq, rfl⟩ := hp
  have h1 : q.1 = q.2 ∧ q.1 ∈ s := by
    have := List.of_mem_zip hq
    refine ⟨?_, this.1⟩
    clear this hv
    induction s with
    | nil => simp at hq
    | cons a s ih =>
      simp only [List.zip_cons_cons, List.mem_cons] at hq
      rcases hq with rfl | hq
      · rfl
      · exact ih hq
  simp only [Prod.map, id]
  rw [← h1.1]
  rcases urlEncByte_table q.1 (hv _ h1.2) with h | ⟨a, h, _, l, _, b, c, d⟩
  · exact Or.inl h
  · exact Or.inr ⟨a, h, l, b, c, d⟩

theorem urlEnc_dec_byte : ∀ c < 256, (BinEnc.urlEncByte c = [c] ∧ c ≠ 0x25 ∧ c ≠ 0x2B) ∨
    (∃ x < 16, ∃ y < 16, BinEnc.urlEncByte c = [0x25, BinEnc.hexchar x, BinEnc.hexchar y] ∧ c = x * 16 + y) := by
  have key : ∀ c < 256, (BinEnc.urlEncByte c = [c] ∧ c ≠ 0x25 ∧ c ≠ 0x2B) ∨
    (BinEnc.urlEncByte c = [0x25, BinEnc.hexchar (c >>> 4), BinEnc.hexchar (c &&& 0xF)]) := by decide +kernel
  intro c hc
  rcases key c hc with h | h
  · exact Or.inl h
  · refine Or.inr ⟨c >>> 4, ?_, c &&& 0xF, ?_, h, ?_⟩
    · rw [Nat.shiftRight_eq_div_pow]; omega
    · rw [Utf8.and0F]; omega
    · rw [Nat.shiftRight_eq_div_pow, Utf8.and0F]; omega

theorem unhex_hexchar : ∀ x < 16, BinEnc.unhex (BinEnc.hexchar x) = .ok x := by decide

theorem urlCount_encode (s : Bytes) (hv : Bytes.Valid s) : BinEnc.urlCount (BinEnc.urlEncode s) = s.length := by
  induction s with
  | nil => simp [BinEnc.urlEncode, BinEnc.urlCount]
  | cons c s ih =>
    have e : BinEnc.urlEncode (c :: s) = BinEnc.urlEncByte c ++ BinEnc.urlEncode s := by simp [BinEnc.urlEncode]
    have ih := ih (fun x hx => hv x (by simp [hx]))
    rw [e]
    rcases urlEnc_dec_byte c (hv c (by simp)) with ⟨h, h1, h2⟩ | ⟨x, hx, y, hy, h, hc⟩
    · rw [h, List.singleton_append, BinEnc.urlCount, if_neg h1, ih, List.length_cons]; omega
    · rw [h]
      simp only [List.cons_append, List.nil_append]
      rw [BinEnc.urlCount, if_pos rfl]
      simp only [List.drop_succ_cons, List.drop_zero, ih, List.length_cons]; omega

theorem urlFill_encode (s : Bytes) (hv : Bytes.Valid s) :
    BinEnc.urlFill (BinEnc.urlEncode s) = .ok (s, false) := by
  induction s with
  | nil => simp [BinEnc.urlEncode, BinEnc.urlFill]
  | cons c s ih =>
    have e : BinEnc.urlEncode (c :: s) = BinEnc.urlEncByte c ++ BinEnc.urlEncode s := by simp [BinEnc.urlEncode]
    have ih := ih (fun x hx => hv x (by simp [hx]))
    rw [e]
    rcases urlEnc_dec_byte c (hv c (by simp)) with ⟨h, h1, h2⟩ | ⟨x, hx, y, hy, h, hc⟩
    · rw [h, List.singleton_append, BinEnc.urlFill.eq_def]
      simp [h1, h2, ih]
    · rw [h]
      simp only [List.cons_append, List.nil_append]
      rw [BinEnc.urlFill, if_pos rfl]
      simp only [unhex_hexchar x hx, unhex_hexchar y hy, ih, Res.bind_ok, Res.pure_eq]
      have q : (x <<< 4 ||| y &&& 15) % 256 = c := by
        rw [Utf8.and0F, Nat.mod_eq_of_lt hy, Nat.shiftLeft_eq, Base64.or_lo x y 4 (by omega)]
        omega
      rw [q]

/-- C16: decoding the percent-encoded text gives the bytes back. -/
theorem C16_round_trip (s : Bytes) (hv : Bytes.Valid s) : BinEnc.urlDecode (BinEnc.urlEncode s) = .ok s := by
  unfold BinEnc.urlDecode
  rw [urlFill_encode s hv, urlCount_encode s hv]
  simp [BinEnc.mkString]

example : BinEnc.urlEncode (ascii "a b%") = ascii "a%20b%25" := by decide

/-- Value of a hexadecimal digit of either case. -/
def hexAny (h : Nat) : Option Nat :=
  if 48 ≤ h ∧ h ≤ 57 then some (h - 48) else if 65 ≤ h ∧ h ≤ 70 then some (h - 55)
  else if 97 ≤ h ∧ h ≤ 102 then some (h - 87) else none

/-- `application/x-www-form-urlencoded` text and the bytes it stands for. -/
inductive FormText : Bytes → Bytes → Prop
  | nil : FormText [] []
  | triplet {h l x y t d} : hexAny h = some x → hexAny l = some y → FormText t d →
      FormText (0x25 :: h :: l :: t) ((x * 16 + y) :: d)
  | plus {t d} : FormText t d → FormText (0x2B :: t) (0x20 :: d)
  | plain {c t d} : c ≠ 0x25 → c ≠ 0x2B → FormText t d → FormText (c :: t) (c :: d)

theorem unhex_any {h x : Nat} (e : hexAny h = some x) : BinEnc.unhex h = .ok x ∧ x < 16 := by
  unfold hexAny at e
  unfold BinEnc.unhex
  split at e
  · cases e; rw [if_neg (by omega), if_pos (by omega)]; exact ⟨rfl, by omega⟩
  · split at e
    · cases e; rw [if_neg (by omega), if_neg (by omega), if_pos (by omega)]
      exact ⟨by congr 1; omega, by omega⟩
    · split at e
      · cases e; rw [if_neg (by omega), if_neg (by omega), if_neg (by omega), if_pos (by omega)]
        exact ⟨by congr 1; omega, by omega⟩
      · cases e

theorem formText_decode {t d : Bytes} (h : FormText t d) : BinEnc.urlFill t = .ok (d, false) ∧ BinEnc.urlCount t = d.length := by
  induction h with
  | nil => exact ⟨by simp [BinEnc.urlFill], by simp [BinEnc.urlCount]⟩
  | @triplet h l x y t d hx hy _ ih =>
    obtain ⟨e1, l1⟩ := unhex_any hx
    obtain ⟨e2, l2⟩ := unhex_any hy
    refine ⟨?_, ?_⟩
    · rw [BinEnc.urlFill, if_pos rfl]
      simp only [e1, e2, ih.1, Res.bind_ok, Res.pure_eq]
      have q : (x <<< 4 ||| y &&& 15) % 256 = x * 16 + y := by
        rw [Utf8.and0F, Nat.mod_eq_of_lt l2, Nat.shiftLeft_eq, Base64.or_lo x y 4 (by omega)]
        omega
      rw [q]
    · rw [BinEnc.urlCount, if_pos rfl]
      simp only [List.drop_succ_cons, List.drop_zero, ih.2, List.length_cons]; omega
  | plus _ ih =>
    refine ⟨?_, ?_⟩
    · rw [BinEnc.urlFill.eq_def]; simp [ih.1]
    · rw [BinEnc.urlCount, if_neg (by omega), ih.2, List.length_cons]; omega
  | plain h1 h2 _ ih =>
    refine ⟨?_, ?_⟩
    · rw [BinEnc.urlFill.eq_def]; simp [ih.1, h1, h2]
    · rw [BinEnc.urlCount, if_neg h1, ih.2, List.length_cons]; omega

/-- C74: every well-formed form-urlencoded text (digits of either case, `+` for a space, any other characters for
themselves) decodes to the bytes it stands for. -/
theorem C74_decode {t d : Bytes} (h : FormText t d) : BinEnc.urlDecode t = .ok d := by
  obtain ⟨h1, h2⟩ := formText_decode h
  unfold BinEnc.urlDecode
  rw [h1, h2]
  simp [BinEnc.mkString]

example : FormText (ascii "a+%c3%A9") (ascii "a " ++ [0xC3, 0xA9]) :=
  .plain (by decide) (by decide) (.plus (.triplet (x := 12) (y := 3) rfl rfl (.triplet (x := 10) (y := 9) rfl rfl .nil)))

/-! ## UTF-8 binary encoding -/

/-- C17: the text is well-formed UTF-8. -/
theorem C17_wellformed (s : Bytes) (hv : Bytes.Valid s) : Spec.WellFormedUtf8 (BinEnc.utf8Encode s) :=
  Utf8.wf_encode s (fun w hw => Or.inl (by have := hv w hw; omega))

/-- C17: decoding gives the bytes back. -/
theorem C17_round_trip (s : Bytes) (hv : Bytes.Valid s) : BinEnc.utf8Decode (BinEnc.utf8Encode s) = .ok s := by
  have hs : ∀ w ∈ s, w < 0x110000 := fun w hw => by have := hv w hw; omega
  unfold BinEnc.utf8Decode BinEnc.utf8Encode
  simp only [Utf8.decodeFrom_encode _ s hs]
  have : s.map (· % 256) = s := by
    conv => rhs; rw [← List.map_id s]
    apply List.map_congr_left
    intro w hw; simp; exact hv w hw
  rw [this]
  simp [BinEnc.mkString]

example : Bytes.Valid [0, 0x7F, 0x80, 0xFF] ∧ BinEnc.utf8Encode [0x7F, 0xFF] = [0x7F, 0xC3, 0xBF] := by decide

/-! ## C69: the decoders on arbitrary text -/

theorem decLoop_any (table : List Nat) (ht : ∀ z < 256, table.getD z 0xFF ≤ 255) (cap : Nat) (str : Bytes)
    (hv : Bytes.Valid str) (k : Nat) (d : Base64.Dec) (hd : d.done.length = k * 3 / 4)
    (hdv : Bytes.Valid d.done) (hcur : d.cur < 256) (hc : k + str.length < cap) :
    ∃ d', Base64.decLoop table cap k d str = .ok d' ∧ d'.done.length = (k + str.length) * 3 / 4 ∧
      Bytes.Valid d'.done := by
  induction str generalizing k d with
  | nil => exact ⟨d, rfl, by simpa using hd, hdv⟩
  | cons z zs ih =>
    have hz := ht z (hv z (by simp))
    simp only [List.length_cons] at hc
    have hstep : ∃ d', Base64.decStep table cap k d z = .ok d' ∧ d'.done.length = (k + 1) * 3 / 4 ∧
        Bytes.Valid d'.done ∧ d'.cur < 256 := by
      have hor : ∀ x < 256, ∀ y < 256, x ||| y < 256 := fun x hx y hy => Nat.or_lt_two_pow (n := 8) hx hy
      have happ : ∀ y, y < 256 → Bytes.Valid (d.done ++ [y]) := by
        intro y hy w hw
        rcases List.mem_append.1 hw with h | h
        · exact hdv w h
        · rw [List.mem_singleton.1 h]; exact hy
      unfold Base64.decStep
      simp only [Base64.and3, Nat.shiftLeft_eq, Nat.shiftRight_eq_div_pow]
      generalize table.getD z 0xFF = b at hz
      have hk : k % 4 = 0 ∨ k % 4 = 1 ∨ k % 4 = 2 ∨ k % 4 = 3 := by omega
      have hg : d.guard cap = .ok () := by unfold Base64.Dec.guard; rw [if_pos (by omega)]
      rcases hk with hk | hk | hk | hk
      · simp only [hk, hg, Res.bind_ok, Res.pure_eq]
        exact ⟨_, rfl, by simp only; omega, hdv, by simp only; omega⟩
      · have hg2 : ∀ y c, Base64.Dec.guard cap ⟨d.done ++ [y], c⟩ = .ok () := by
          intro y c; unfold Base64.Dec.guard; rw [if_pos (by simp; omega)]
        simp only [hk, hg, hg2, Res.bind_ok, Res.pure_eq]
        exact ⟨_, rfl, by simp; omega, happ _ (hor _ hcur _ (by omega)), by simp only; omega⟩
      · have hg2 : ∀ y c, Base64.Dec.guard cap ⟨d.done ++ [y], c⟩ = .ok () := by
          intro y c; unfold Base64.Dec.guard; rw [if_pos (by simp; omega)]
        simp only [hk, hg, hg2, Res.bind_ok, Res.pure_eq]
        exact ⟨_, rfl, by simp; omega, happ _ (hor _ hcur _ (by omega)), by simp only; omega⟩
      · simp only [hk, hg, Res.bind_ok, Res.pure_eq]
        exact ⟨_, rfl, by simp; omega, happ _ (hor _ hcur _ (by omega)), by simp⟩
    obtain ⟨d', h1, h2, h3, h4⟩ := hstep
    obtain ⟨d2, g1, g2, g3⟩ := ih (fun x hx => hv x (by simp [hx])) (k + 1) d' h2 h3 h4 (by omega)
    refine ⟨d2, ?_, ?_, g3⟩
    · simp only [Base64.decLoop, h1, Res.bind_ok]; exact g1
    · rw [g2, List.length_cons]; congr 2; omega

theorem decodeCommon_any (table : List Nat) (ht : ∀ z < 256, table.getD z 0xFF ≤ 255) (str : Bytes)
    (hv : Bytes.Valid str) (len finlen : Nat) (hl : len ≤ str.length) (hf : finlen = len * 3 / 4) :
    ∃ out, Base64.decodeCommon table len finlen str = .ok out ∧ out.length = finlen ∧ Bytes.Valid out := by
  have hvt : Bytes.Valid (str.take len) := fun x hx => hv x (List.mem_of_mem_take hx)
  have hlt : (str.take len).length = len := by rw [List.length_take]; omega
  obtain ⟨d, h1, h2, h3⟩ := decLoop_any table ht (len + 1) (str.take len) hvt 0 ⟨[], 0⟩ (by simp)
    (by intro x hx; simp at hx) (by simp) (by omega)
  unfold Base64.decodeCommon
  rw [h1]
  simp only [Res.bind_ok]
  have : d.done.length = finlen := by rw [h2, hf, hlt]; simp
  rw [if_neg (by omega), if_neg (by omega)]
  exact ⟨_, rfl, by rw [List.length_take]; omega, fun x hx => h3 x (List.mem_of_mem_take hx)⟩

/-- C69 (base64url): any text decodes, without leaving the buffer, to `floor(3 n / 4)` bytes. -/
theorem C69_base64url_total (str : Bytes) (hv : Bytes.Valid str) :
    ∃ out, Base64.decodeUrl str = .ok out ∧ out.length = str.length * 3 / 4 ∧ Bytes.Valid out :=
  decodeCommon_any _ Base64.tableUrl_le str hv _ _ (Nat.le_refl _) rfl

/-- C69 (base64): any text decodes, without leaving the buffer. -/
theorem C69_base64_total (str : Bytes) (hv : Bytes.Valid str) :
    ∃ out, Base64.decode64 str = .ok out ∧ out.length ≤ str.length * 3 / 4 ∧ Bytes.Valid out := by
  unfold Base64.decode64
  simp only
  split
  · exact ⟨[], rfl, by simp, by intro x hx; simp at hx⟩
  · next h =>
    rw [Base64.and3] at h
    have h4 : str.length % 4 = 0 ∧ 0 < str.length := by omega
    generalize hs1 : (if str.getD (str.length - 1) 0 = 0x3D then 1 else 0) = s1
    have b1 : s1 ≤ 1 := by rw [← hs1]; split <;> omega
    generalize hs2 : (if str.getD (str.length - s1 - 1) 0 = 0x3D then 1 else 0) = s2
    have b2 : s2 ≤ 1 := by rw [← hs2]; split <;> omega
    obtain ⟨out, h1, h2, h3⟩ := decodeCommon_any _ Base64.table64_le str hv (str.length - s1 - s2)
      (str.length * 3 / 4 - s1 - s2) (by omega) (by
        have : s1 = 0 ∨ s1 = 1 := by omega
        have : s2 = 0 ∨ s2 = 1 := by omega
        omega)
    exact ⟨out, h1, by omega, h3⟩

example : Bytes.Valid (ascii "=A\x00=") ∧ Base64.decode64 (ascii "TQ==") = .ok (ascii "M") := by decide +kernel

theorem urlFill_any (s : Bytes) (h : ∀ c ∈ s, c < 128) :
    ∃ t, BinEnc.urlFill s = .ok t ∧ t.1.length = (if t.2 then BinEnc.urlCount s - 1 else BinEnc.urlCount s) ∧
      (t.2 = true → 1 ≤ BinEnc.urlCount s) := by
  have hunhex : ∀ c, c < 128 → ∃ x, BinEnc.unhex c = .ok x := by
    intro c hc; unfold BinEnc.unhex
    rw [if_neg (by omega)]; split; · exact ⟨_, rfl⟩
    split; · exact ⟨_, rfl⟩
    split; · exact ⟨_, rfl⟩
    · exact ⟨_, rfl⟩
  match s with
  | [] => exact ⟨_, rfl, by simp [BinEnc.urlCount], by simp⟩
  | c :: cs =>
    by_cases hc : c = 0x25
    · match cs with
      | a :: b :: r =>
        obtain ⟨t, h1, h2, h3⟩ := urlFill_any r (fun x hx => h x (by simp [hx]))
        obtain ⟨x, hx⟩ := hunhex a (h a (by simp))
        obtain ⟨y, hy⟩ := hunhex b (h b (by simp))
        rw [BinEnc.urlFill, if_pos hc, BinEnc.urlCount, if_pos hc]
        simp only [hx, hy, h1, Res.bind_ok, Res.pure_eq, List.drop_succ_cons, List.drop_zero]
        refine ⟨_, rfl, ?_, fun _ => by omega⟩
        simp only [List.length_cons]
        split <;> rename_i ht
        · have := h3 ht; rw [if_pos ht] at h2; omega
        · rw [if_neg ht] at h2; omega
      | [] =>
        subst hc; exact ⟨_, rfl, by simp [BinEnc.urlCount], by simp [BinEnc.urlCount]⟩
      | [a] =>
        subst hc; exact ⟨_, rfl, by simp [BinEnc.urlCount], by simp [BinEnc.urlCount]⟩
    · obtain ⟨t, h1, h2, h3⟩ := urlFill_any cs (fun x hx => h x (by simp [hx]))
      rw [BinEnc.urlFill.eq_def, BinEnc.urlCount, if_neg hc]
      simp only [if_neg hc, h1, Res.bind_ok, Res.pure_eq]
      refine ⟨_, rfl, ?_, fun _ => by omega⟩
      simp only [List.length_cons]
      split <;> rename_i ht
      · have := h3 ht; rw [if_pos ht] at h2; omega
      · rw [if_neg ht] at h2; omega
termination_by s.length

/-- C69 (urlencoding), partial: texts of ASCII characters, also malformed ones, decode without leaving the buffer.
Missing: bytes from 0x80 up after `%`, see the violation below. -/
theorem C69_url_total_partial (s : Bytes) (h : ∀ c ∈ s, c < 128) : ∃ out, BinEnc.urlDecode s = .ok out := by
  obtain ⟨t, h1, h2, h3⟩ := urlFill_any s h
  unfold BinEnc.urlDecode
  rw [h1]
  simp only [Res.bind_ok]
  unfold BinEnc.mkString
  rw [if_neg (by split at h2 <;> omega)]
  have hg : t.1.getD (BinEnc.urlCount s) 0 = 0 := by
    rw [List.getD_eq_getElem?_getD, List.getElem?_eq_none (by split at h2 <;> omega)]; rfl
  rw [hg, if_neg (by simp; split <;> omega), if_neg (by omega)]
  exact ⟨_, rfl⟩

example : ∀ c ∈ ascii "a%zz+%4", c < 128 := by decide

/-- C69 is violated by urlencoding: a byte above 0x7F after `%` is passed to `isdigit` as a negative number. -/
theorem C69_violation_url : BinEnc.urlDecode [0x25, 0xC3, 0xA9] = .ub := by decide

/-- C69 is violated by utf8encoding: this malformed text aborts the process, because the second pass of the shared
converter produces a character the first pass did not count. -/
theorem C69_violation_utf8 : BinEnc.utf8Decode [0x80, 0xC3] = .abort := by decide

/-- C69 (utf8encoding), partial: well-formed text always decodes. -/
theorem C69_utf8_total_partial (s : Bytes) (h : Spec.WellFormedUtf8 s) : ∃ out, BinEnc.utf8Decode s = .ok out := by
  obtain ⟨ws, h1, rfl⟩ := Utf8.encode_of_wf h
  have hs : ∀ w ∈ ws, w < 0x110000 := fun w hw => by have := h1 w hw; unfold Spec.IsScalar at this; omega
  unfold BinEnc.utf8Decode
  simp only [Utf8.decodeFrom_encode _ ws hs]
  refine ⟨ws.map (· % 256), ?_⟩
  unfold BinEnc.mkString
  rw [if_neg (by simp), if_neg (by simp [List.getD]), if_neg (by simp)]
  rw [List.take_of_length_le (by simp)]

example : Spec.WellFormedUtf8 [0x41, 0xE2, 0x82, 0xAC] :=
  .one (by decide) (.three2 (by decide) (by decide) (by decide) .nil)

end Imt.Props
