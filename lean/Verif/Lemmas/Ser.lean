import Mathlib.Tactic.ByContra
import Verif.Model.Serializer
import Verif.Spec.Denote
import Verif.Lemmas.Utf8Spec
import Verif.Lemmas.ParserStr
/-! # Lemmas on the serializer -/
namespace Imt.Ser
open Imt Spec

/-! ## Integers -/

theorem decVal_snoc (a : Bytes) (c : Nat) : decVal (a ++ [c]) = decVal a * 10 + (c - 48) := by
  simp [decVal]

theorem digitsRec_spec (n : Nat) : (∀ c ∈ digitsRec n, IsDig c) ∧ decVal (digitsRec n) = n ∧
    (n ≠ 0 → digitsRec n ≠ [] ∧ (digitsRec n).head? ≠ some 48) := by
  induction n using Nat.strongRecOn with
  | ind n ih =>
    rw [digitsRec]
    by_cases h : n = 0
    · subst h; simp [decVal]
    · rw [dif_neg h]
      obtain ⟨i1, i2, i3⟩ := ih (n / 10) (by omega)
      refine ⟨?_, ?_, fun _ => ⟨by simp, ?_⟩⟩
      · intro c hc
        rw [List.mem_append] at hc
        rcases hc with hc | hc
        · exact i1 c hc
        · simp only [List.mem_singleton] at hc
          unfold IsDig; omega
      · rw [decVal_snoc, i2]; omega
      · by_cases h' : n / 10 = 0
        · rw [h', digitsRec, dif_pos rfl]
          simp only [List.nil_append, List.head?_cons, ne_eq, Option.some.injEq]; omega
        · obtain ⟨a, b, hab⟩ := List.exists_cons_of_ne_nil (i3 h').1
          have := (i3 h').2
          rw [hab] at this ⊢
          simpa using this

theorem writeUnsigned_spec (n : Nat) : Digits1 (writeUnsigned n) ∧ decVal (writeUnsigned n) = n ∧
    ((writeUnsigned n).head? = some 48 → writeUnsigned n = [48]) := by
  unfold writeUnsigned
  by_cases h : n = 0
  · subst h; rw [if_neg (by simp)]; exact ⟨by decide, by decide, fun _ => rfl⟩
  · rw [if_pos h]
    obtain ⟨h1, h2, h3⟩ := digitsRec_spec n
    exact ⟨⟨(h3 h).1, h1⟩, h2, fun h' => absurd h' (h3 h).2⟩

/-- The token written for an integer. -/
def intTok (i : Int) : NumTok := ⟨decide (i < 0), writeUnsigned i.natAbs, none, none⟩

theorem intTok_wf (i : Int) : (intTok i).WF :=
  ⟨⟨(writeUnsigned_spec _).1, (writeUnsigned_spec _).2.2⟩, by simp [intTok], by simp [intTok]⟩

theorem intTok_text (i : Int) : (intTok i).text = writeSigned i := by
  unfold NumTok.text intTok writeSigned
  by_cases h : i < 0 <;> simp [h, fracText, expText]

/-! ## Strings -/

theorem hex_spec : ∀ x < 16, HexDig (hex x) x := by
  have h1 : ∀ x < 10, hex x = x + 48 := by decide +kernel
  have h2 : ∀ x < 16, 10 ≤ x → hex x = x + 55 := by decide +kernel
  intro x hx
  by_cases h : x < 10
  · have := HexDig.dec (c := x + 48) (by omega) (by omega)
    rw [h1 x h]; simpa using this
  · have := HexDig.up (c := x + 55) (by omega) (by omega)
    rw [h2 x hx (by omega)]; simpa using this

theorem hex_ascii (x : Nat) (h : x < 16) : 0x30 ≤ hex x ∧ hex x ≤ 0x46 := by
  have : ∀ x < 16, 0x30 ≤ hex x ∧ hex x ≤ 0x46 := by decide +kernel
  exact this x h

theorem andF (n : Nat) : n &&& 0xF = n % 16 := Nat.and_two_pow_sub_one_eq_mod n 4

theorem escU_eq (u : Nat) : escU u = [0x5C, 0x75, hex (u / 4096 % 16), hex (u / 256 % 16), hex (u / 16 % 16), hex (u % 16)] := by
  simp only [escU, andF, Nat.shiftRight_eq_div_pow]

theorem escU_esc4 (u : Nat) (h : u < 65536) : Esc4 (escU u) u := by
  have := Esc4.mk (hex_spec (u / 4096 % 16) (by omega)) (hex_spec (u / 256 % 16) (by omega))
    (hex_spec (u / 16 % 16) (by omega)) (hex_spec (u % 16) (by omega))
  rw [escU_eq]
  have he : 4096 * (u / 4096 % 16) + 256 * (u / 256 % 16) + 16 * (u / 16 % 16) + u % 16 = u := by omega
  rw [he] at this
  exact this

/-- Text written for one character. -/
def chr (u8 : Bool) (w : Nat) : Bytes :=
  if w < 128 then
    match shortEsc w with
    | some e => [0x5C, e]
    | none => if w < 32 then escU w else [w]
  else writeUnicode u8 w

theorem shortEsc_big (c : Nat) (h : 128 ≤ c) : shortEsc c = none := by
  unfold shortEsc
  rw [if_neg (by omega), if_neg (by omega), if_neg (by omega), if_neg (by omega), if_neg (by omega), if_neg (by omega)]

theorem body_big (u8 : Bool) (d : Utf8.Dec) (c : Nat) (cs : Bytes) (h : 128 ≤ c) :
    body u8 d (c :: cs) = (((d.step c).2.map (writeUnicode u8)).getD []) ++ body u8 (d.step c).1 cs := by
  rw [body, shortEsc_big c h]
  dsimp only
  rw [if_pos (Or.inr h)]

theorem writeUnicode_ctrl (u8 : Bool) (w : Nat) (h : w < 128) : writeUnicode u8 w = escU w := by
  unfold writeUnicode
  rw [if_neg (by omega)]

theorem body_wide (u8 : Bool) (w : Nat) (h : w < 0x110000) (d : Utf8.Dec) :
    ∃ d', ∀ t, body u8 d (Utf8.wideToUtf8 w ++ t) = chr u8 w ++ body u8 d' t := by
  by_cases h1 : w < 128
  · refine ⟨d, fun t => ?_⟩
    rw [Utf8.wide1 h1, List.singleton_append, body, chr, if_pos h1]
    cases hs : shortEsc w with
    | some e => simp
    | none =>
      dsimp only
      by_cases h2 : w < 32
      · rw [if_pos (Or.inl h2), if_pos h2, Utf8.Dec.step_ascii d w h1]
        simp [writeUnicode_ctrl u8 w h1]
      · rw [if_neg (by omega), if_neg h2]; rfl
  · rw [chr, if_neg h1]
    by_cases h2 : w ≤ 0x7FF
    · refine ⟨⟨w / 64 * 64 + w % 64, 0⟩, fun t => ?_⟩
      rw [Utf8.wide2 (by omega) h2, List.cons_append, List.cons_append, List.nil_append, body_big _ _ _ _ (by omega),
        Utf8.Dec.step_lead2 _ _ (by omega), body_big _ _ _ _ (by omega), Utf8.Dec.step_last _ _ (by omega) (by omega)]
      have : w / 64 * 64 + w % 64 = w := by omega
      simp [this]
    · by_cases h3 : w ≤ 0xFFFF
      · refine ⟨⟨(w / 4096 * 64 + w / 64 % 64) * 64 + w % 64, 0⟩, fun t => ?_⟩
        rw [Utf8.wide3 (by omega) h3, List.cons_append, List.cons_append, List.cons_append, List.nil_append,
          body_big _ _ _ _ (by omega), Utf8.Dec.step_lead3 _ _ (by omega), body_big _ _ _ _ (by omega),
          Utf8.Dec.step_more _ 0 _ (by omega) (by omega) (by omega), body_big _ _ _ _ (by omega),
          Utf8.Dec.step_last _ _ (by omega) (by omega)]
        have : (w / 4096 * 64 + w / 64 % 64) * 64 + w % 64 = w := by omega
        simp [this]
      · refine ⟨⟨((w / 262144 * 64 + w / 4096 % 64) * 64 + w / 64 % 64) * 64 + w % 64, 0⟩, fun t => ?_⟩
        rw [Utf8.wide4 (by omega) (by omega), List.cons_append, List.cons_append, List.cons_append, List.cons_append,
          List.nil_append, body_big _ _ _ _ (by omega), Utf8.Dec.step_lead4 _ _ (by omega), body_big _ _ _ _ (by omega),
          Utf8.Dec.step_more _ 1 _ (by omega) (by omega) (by omega), body_big _ _ _ _ (by omega),
          Utf8.Dec.step_more _ 0 _ (by omega) (by omega) (by omega), body_big _ _ _ _ (by omega),
          Utf8.Dec.step_last _ _ (by omega) (by omega)]
        have : ((w / 262144 * 64 + w / 4096 % 64) * 64 + w / 64 % 64) * 64 + w % 64 = w := by omega
        simp [this]

theorem shortEsc_cases (w : Nat) : (∃ e, shortEsc w = some e ∧ Esc1 e w) ∨ (shortEsc w = none ∧ w ≠ 0x22 ∧ w ≠ 0x5C) := by
  unfold shortEsc
  split
  · rename_i h
    rcases h with rfl | rfl
    · exact Or.inl ⟨_, rfl, .back⟩
    · exact Or.inl ⟨_, rfl, .quote⟩
  · rename_i h
    split
    · rename_i h; subst h; exact Or.inl ⟨_, rfl, .f⟩
    · split
      · rename_i h; subst h; exact Or.inl ⟨_, rfl, .b⟩
      · split
        · rename_i h; subst h; exact Or.inl ⟨_, rfl, .r⟩
        · split
          · rename_i h; subst h; exact Or.inl ⟨_, rfl, .n⟩
          · split
            · rename_i h; subst h; exact Or.inl ⟨_, rfl, .t⟩
            · exact Or.inr ⟨rfl, by omega, by omega⟩

theorem chr_body (u8 : Bool) (w : Nat) (h : IsScalar w) (hb : u8 = true ∨ w < 0x10000) (t s : Bytes)
    (ih : StrBody False t s) : StrBody False (chr u8 w ++ t) (utf8 w ++ s) := by
  have hlt : w < 0x110000 := by unfold IsScalar at h; omega
  have h8 : w < 128 → utf8 w = [w] := fun hw => by rw [Parser.utf8_eq w hlt, Utf8.wide1 hw]
  unfold chr
  by_cases h1 : w < 128
  · rw [if_pos h1]
    rcases shortEsc_cases w with ⟨e, he, hE⟩ | ⟨he, hq, hbk⟩
    · rw [he, h8 h1]
      exact StrBody.esc hE ih
    · rw [he]
      dsimp only
      by_cases h2 : w < 32
      · rw [if_pos h2]
        exact StrBody.uni (escU_esc4 w (by omega)) h ih
      · rw [if_neg h2]
        have := StrBody.raw (pairs := False) h (by omega) hq hbk ih
        rw [h8 h1] at this ⊢
        exact this
  · rw [if_neg h1]
    unfold writeUnicode
    by_cases h2 : u8 = true ∧ w ≥ 0x80 ∧ w ≠ 0x2028 ∧ w ≠ 0x2029
    · rw [if_pos h2, if_neg (by omega), ← Parser.utf8_eq w hlt]
      exact StrBody.raw h (by omega) (by omega) (by omega) ih
    · rw [if_neg h2]
      have : w < 65536 := by
        rcases hb with hb | hb
        · have : w = 0x2028 ∨ w = 0x2029 := by
            by_contra hn
            exact h2 ⟨hb, by omega, by omega, by omega⟩
          omega
        · exact hb
      exact StrBody.uni (escU_esc4 w this) h ih

theorem body_strBody (u8 : Bool) (s : Bytes) (h : StrOk u8 s) (d : Utf8.Dec) : StrBody False (body u8 d s) s := by
  obtain ⟨hw, hb⟩ := h
  obtain ⟨ws, hs, rfl⟩ := Utf8.encode_of_wf hw
  clear hw
  induction ws generalizing d with
  | nil => rw [Utf8.encode, List.flatMap_nil, body]; exact .nil
  | cons w ws ih =>
    rw [Utf8.encode_cons] at hb ⊢
    have hsc := hs w (by simp)
    have hlt : w < 0x110000 := by unfold IsScalar at hsc; omega
    obtain ⟨d', hd⟩ := body_wide u8 w hlt d
    rw [hd, ← Parser.utf8_eq w hlt]
    apply chr_body u8 w hsc
    · rcases hb with hb | hb
      · exact Or.inl hb
      · right
        by_contra hn
        rw [Utf8.wide4 (by omega) (by omega)] at hb
        have := hb (240 + w / 262144) (by simp)
        omega
    · refine ih d' (fun x hx => hs x (by simp [hx])) ?_
      rcases hb with hb | hb
      · exact Or.inl hb
      · exact Or.inr fun b hx => hb b (by simp [hx])

/-! ## Trees -/

theorem ws_nil : Ws [] := by simp [Ws]

theorem infSign_ok (u8 : Bool) : StrOk u8 infSign ∧ StrOk u8 (0x2D :: infSign) := by
  have h : WellFormedUtf8 infSign := .three2 (by decide) (by decide) (by decide) .nil
  exact ⟨⟨h, Or.inr (by decide)⟩, ⟨.one (by decide) h, Or.inr (by decide)⟩⟩

theorem ascii_undefined_ok (u8 : Bool) : StrOk u8 (ascii "undefined") := by
  have h : ∀ s : Bytes, (∀ b ∈ s, b < 128) → WellFormedUtf8 s := by
    intro s hs
    induction s with
    | nil => exact .nil
    | cons a s ih =>
      have := hs a (by simp)
      exact .one ⟨by omega, by omega⟩ (ih fun b hb => hs b (by simp [hb]))
  exact ⟨h _ (by decide), Or.inr (by decide)⟩

theorem strVal (u8 : Bool) (s : Bytes) (h : StrOk u8 s) : JVal False (writeString u8 s) (.str s) :=
  JVal.str (body_strBody u8 s h _)

mutual
theorem ser_grammar (u8 : Bool) (f : Decimal → Bytes) : (v : JV) → Printable u8 f v →
    ∃ j, JVal False (ser u8 f v) j ∧ Denotes f v j
  | .undef, _ => ⟨_, by rw [ser]; exact strVal u8 _ (ascii_undefined_ok u8), .undef⟩
  | .null, _ => ⟨_, by rw [ser]; exact .null, .null⟩
  | .bool true, _ => ⟨_, by rw [ser]; exact .true, .bool⟩
  | .bool false, _ => ⟨_, by rw [ser]; exact .false, .bool⟩
  | .num (.uint n), _ => ⟨.num (intTok n), by
      rw [ser, writeNum]
      have := JVal.num (pairs := False) (intTok_wf n)
      rw [intTok_text] at this
      have h0 : ¬ ((n : Int) < 0) := by omega
      simpa [writeSigned, h0] using this, .uint (intTok_wf n).int.1 (by simp [intTok]) rfl rfl (by simp [intTok, (writeUnsigned_spec n).2.1])⟩
  | .num (.int i), _ => ⟨.num (intTok i), by
      rw [ser, writeNum, ← intTok_text]
      exact JVal.num (intTok_wf i), .int (intTok_wf i).int.1 rfl rfl rfl (writeUnsigned_spec _).2.1⟩
  | .num (.dbl d), h => by
      rw [Printable] at h
      obtain ⟨t, ht, he⟩ := h
      exact ⟨.num t, by rw [ser, writeNum, ← he]; exact .num ht, .dbl ht he⟩
  | .num (.inf false), _ => ⟨_, by rw [ser, writeNum]; exact strVal u8 _ (infSign_ok u8).1, .posInf⟩
  | .num (.inf true), _ => ⟨_, by rw [ser, writeNum]; exact strVal u8 _ (infSign_ok u8).2, .negInf⟩
  | .num (.prec txt c), h => by
      rw [Printable] at h
      obtain ⟨t, ht, he⟩ := h
      exact ⟨.num t, by rw [ser, writeNum, ← he]; exact .num ht, .prec ht he⟩
  | .str s, h => ⟨_, by rw [ser]; exact strVal u8 s (by simpa [Printable] using h), .str⟩
  | .arr [], _ => ⟨.arr [], by rw [ser, serItems]; exact .arr0 ws_nil, .arr .nil⟩
  | .arr (v :: l), h => by
      rw [Printable] at h
      obtain ⟨js, h1, h2⟩ := serItems_grammar u8 f (v :: l) (by simp) h
      exact ⟨.arr js, by rw [ser]; exact .arr h1, .arr h2⟩
  | .obj [], _ => ⟨.obj [], by rw [ser, serMembers]; exact .obj0 ws_nil, .obj .nil⟩
  | .obj (m :: l), h => by
      rw [Printable] at h
      obtain ⟨js, h1, h2⟩ := serMembers_grammar u8 f (m :: l) (by simp) h
      exact ⟨.obj js, by rw [ser]; exact .obj h1, .obj h2⟩
theorem serItems_grammar (u8 : Bool) (f : Decimal → Bytes) : (l : List JV) → l ≠ [] → PrintableL u8 f l →
    ∃ js, JElems False (serItems u8 f l) js ∧ DenotesL f l js
  | [], h, _ => absurd rfl h
  | [v], _, h => by
      rw [PrintableL] at h
      obtain ⟨j, h1, h2⟩ := ser_grammar u8 f v h.1
      have := JElems.one (w := []) (w' := []) ws_nil h1 ws_nil
      exact ⟨[j], by simpa [serItems] using this, .cons h2 .nil⟩
  | v :: w :: l, _, h => by
      rw [PrintableL] at h
      obtain ⟨j, h1, h2⟩ := ser_grammar u8 f v h.1
      obtain ⟨js, h3, h4⟩ := serItems_grammar u8 f (w :: l) (by simp) h.2
      have := JElems.cons (w := []) (w' := []) ws_nil h1 ws_nil h3
      exact ⟨j :: js, by simpa [serItems] using this, .cons h2 h4⟩
theorem serMembers_grammar (u8 : Bool) (f : Decimal → Bytes) : (l : List (Bytes × JV)) → l ≠ [] →
    PrintableM u8 f l → ∃ js, JMembs False (serMembers u8 f l) js ∧ DenotesM f l js
  | [], h, _ => absurd rfl h
  | [(k, v)], _, h => by
      rw [PrintableM] at h
      obtain ⟨j, h1, h2⟩ := ser_grammar u8 f v h.2.1
      have := JMembs.one (w := []) (w1 := []) (w2 := []) (w3 := []) ws_nil (body_strBody u8 k h.1 Utf8.Dec.init) ws_nil ws_nil h1 ws_nil
      exact ⟨[(k, j)], by simpa [serMembers, writeString] using this, .cons h2 .nil⟩
  | (k, v) :: m :: l, _, h => by
      rw [PrintableM] at h
      obtain ⟨j, h1, h2⟩ := ser_grammar u8 f v h.2.1
      obtain ⟨js, h3, h4⟩ := serMembers_grammar u8 f (m :: l) (by simp) h.2.2
      have := JMembs.cons (w := []) (w1 := []) (w2 := []) (w3 := []) ws_nil (body_strBody u8 k h.1 Utf8.Dec.init) ws_nil ws_nil h1 ws_nil h3
      exact ⟨(k, j) :: js, by simpa [serMembers, writeString] using this, .cons h2 h4⟩
end

/-! ## Bytes of escaped output -/

/-- The bytes 0x20..0x7F. -/
def Asc (s : Bytes) : Prop := ∀ b ∈ s, 0x20 ≤ b ∧ b ≤ 0x7F

theorem Asc.append {a b : Bytes} (ha : Asc a) (hb : Asc b) : Asc (a ++ b) := by
  intro x hx
  rw [List.mem_append] at hx
  exact hx.elim (ha x) (hb x)

theorem Asc.cons {a : Nat} {b : Bytes} (ha : 0x20 ≤ a ∧ a ≤ 0x7F) (hb : Asc b) : Asc (a :: b) := by
  intro x hx
  rcases List.mem_cons.1 hx with rfl | hx
  · exact ha
  · exact hb x hx

theorem asc_escU (u : Nat) : Asc (escU u) := by
  rw [escU_eq]
  have := fun x (h : x < 16) => hex_ascii x h
  intro b hb
  simp only [List.mem_cons, List.not_mem_nil, or_false] at hb
  rcases hb with rfl | rfl | rfl | rfl | rfl | rfl
  · decide
  · decide
  · have := hex_ascii (u / 4096 % 16) (by omega); omega
  · have := hex_ascii (u / 256 % 16) (by omega); omega
  · have := hex_ascii (u / 16 % 16) (by omega); omega
  · have := hex_ascii (u % 16) (by omega); omega

theorem asc_body (s : Bytes) (d : Utf8.Dec) : Asc (body false d s) := by
  induction s generalizing d with
  | nil => rw [body]; intro b hb; simp at hb
  | cons c cs ih =>
    rw [body]
    rcases shortEsc_cases c with ⟨e, he, hE⟩ | ⟨he, -, -⟩
    · rw [he]
      refine Asc.cons (by decide) (Asc.cons ?_ (ih d))
      cases hE <;> decide
    · rw [he]
      dsimp only
      split
      · apply Asc.append _ (ih _)
        cases (d.step c).2 with
        | none => intro b hb; simp at hb
        | some w =>
          simp only [Option.map_some, Option.getD_some, writeUnicode, Bool.false_eq_true, false_and, if_false]
          exact asc_escU w
      · exact Asc.cons (by omega) (ih d)

theorem asc_string (s : Bytes) : Asc (writeString false s) :=
  Asc.cons (by decide) (Asc.append (asc_body s _) (Asc.cons (by decide) (by intro b hb; simp at hb)))

theorem asc_digits {s : Bytes} (h : ∀ c ∈ s, IsDig c) : Asc s := by
  intro b hb; have := h b hb; unfold IsDig at this; omega

theorem asc_signed (i : Int) : Asc (writeSigned i) := by
  unfold writeSigned
  split
  · exact Asc.cons (by decide) (asc_digits (writeUnsigned_spec _).1.2)
  · exact asc_digits (writeUnsigned_spec _).1.2

end Imt.Ser
