import Mathlib.Data.List.TakeWhile
import Verif.Lemmas.ParserRej
import Verif.Model.Serializer
/-! # Properties of the text parser: C05, C06, C07, C09, C10 -/
namespace Imt.Props
open Imt Parser Spec

/-! ## C05 -/

/-- C05, the part that holds: every grammatical text without surrogate pairs, unique keys, numbers within the floating
point limits and without the strings "∞", "-∞" is accepted, whatever the white space and the escapes; the value
represents what the grammar assigns; exactly the text (and the leading white space) is consumed. Both sources (signed
and unsigned bytes), with and without precise numbers. Missing: surrogate pairs and the two strings, which are parsed
to something else (see the violations). -/
theorem C05_accepts_partial (cfg : Cfg) (w t w' : Bytes) (v : SJ) (hw : Ws w) (h : JVal False t v) (hw' : Ws w')
    (hn : NumsFit cfg v) (hd : DupFree cfg v) (hi : NoInf v) (rest : Bytes) (hr : StopNum rest) :
    ∃ x, parse cfg (w ++ (t ++ (w' ++ rest))) = .ok (x, w' ++ rest) ∧ Means cfg v x :=
  ⟨interpV cfg v, parse_grammar cfg h ⟨hn, hd⟩ w (w' ++ rest) hw (stopNum_ws_only w' rest hw' hr), interpV_means cfg v hi⟩

/-- `{"a" : [1, -2.5e3]}`, a text meeting the hypotheses of `C05_accepts_partial`. -/
example : ∃ v, JVal False (ascii "{\"a\" : [1, -2.5e3]}") v ∧ NumsFit {} v ∧ DupFree {} v ∧ NoInf v := by
  have hn1 : NumTok.WF ⟨false, [0x31], none, none⟩ := ⟨by decide, by simp, by simp⟩
  have hn2 : NumTok.WF ⟨true, [0x32], some [0x35], some (0x65, [], [0x33])⟩ := ⟨by decide, by decide, by decide⟩
  have h2 : JElems False (ascii " -2.5e3") [_] := JElems.one (w := [0x20]) (w' := []) (by simp [Ws]) (.num hn2) (by simp [Ws])
  have h1 : JElems False (ascii "1, -2.5e3") [_, _] := JElems.cons (w := []) (w' := []) (by simp [Ws]) (.num hn1) (by simp [Ws]) h2
  have hk : StrBody False [0x61] [0x61] := StrBody.raw (w := 0x61) (t := []) (s := []) (by decide) (by decide) (by decide) (by decide) .nil
  refine ⟨_, JVal.obj (JMembs.one (w := []) (w1 := [0x20]) (w2 := [0x20]) (w3 := []) (by simp [Ws]) hk (by simp [Ws])
    (by simp [Ws]) (JVal.arr h1) (by simp [Ws])), ?_, ?_, ?_⟩
  · simp only [NumsFit, NumsFitM, NumsFitL, and_true]
    exact ⟨fun _ => ⟨rfl, by simp [ExpFits]⟩, fun _ => ⟨rfl, by simp [ExpFits]; decide⟩⟩
  · simp [DupFree, DupFreeM, DupFreeL]
  · simp [NoInf, NoInfM, NoInfL]

/-- C05: the limits are exact. A grammatical text without surrogate pairs is rejected if and only if some object in it
has a key twice (unless allowed) or, outside of the precise mode, some number has an exponent of 2^64 or more or an
integer part that is infinite as a double (`tooLong`; integers below 2^64 are not). -/
theorem C05_limits (cfg : Cfg) (htl : ∀ n < 2 ^ 64, cfg.tooLong n = false) (w t w' rest : Bytes) (v : SJ) (hw : Ws w)
    (h : JVal False t v) (hw' : Ws w') (hr : StopNum rest) :
    parse cfg (w ++ (t ++ (w' ++ rest))) = .err ↔ ¬ (NumsFit cfg v ∧ DupFree cfg v) := by
  constructor
  · intro e hf
    rw [parse_grammar cfg h hf w (w' ++ rest) hw (stopNum_ws_only w' rest hw' hr)] at e
    cases e
  · exact fun hf => parse_reject cfg htl h hf w (w' ++ rest) hw (stopNum_ws_only w' rest hw' hr)

/-- `[1e18446744073709551616]` is outside the limits. -/
example : ∃ v, JVal False (ascii "[1e18446744073709551616]") v ∧ ¬ NumsFit {} v := by
  have hn : NumTok.WF ⟨false, [0x31], none, some (0x65, [], ascii "18446744073709551616")⟩ := ⟨by decide, by simp, by decide⟩
  refine ⟨_, JVal.arr (JElems.one (w := []) (w' := []) (by simp [Ws]) (.num hn) (by simp [Ws])), ?_⟩
  simp only [NumsFit, NumsFitL, and_true]
  intro h
  have := (h (by trivial)).2 _ rfl
  revert this
  decide

/-- C05 does not hold for surrogate pairs: the text `"😀"` written as two `\u` escapes denotes U+1F600 (F0 9F 98 80)
but is parsed to the six bytes ED A0 BD ED B8 80. -/
theorem C05_violation_surrogates :
    JVal True (ascii "\"\\uD83D\\uDE00\"") (.str [0xF0, 0x9F, 0x98, 0x80]) ∧
    parse {} (ascii "\"\\uD83D\\uDE00\"") = .ok (.str [0xED, 0xA0, 0xBD, 0xED, 0xB8, 0x80], []) := by
  refine ⟨?_, by decide +kernel⟩
  have h1 : Esc4 (ascii "\\uD83D") (4096 * 13 + 256 * 8 + 16 * 3 + 13) :=
    .mk (.up (by decide) (by decide)) (.dec (by decide) (by decide)) (.dec (by decide) (by decide)) (.up (by decide) (by decide))
  have h2 : Esc4 (ascii "\\uDE00") (4096 * 13 + 256 * 14 + 16 * 0 + 0) :=
    .mk (.up (by decide) (by decide)) (.up (by decide) (by decide)) (.dec (by decide) (by decide)) (.dec (by decide) (by decide))
  have hb := StrBody.pair (pairs := True) trivial h1 (by decide) (by decide) h2 (by decide) (by decide) .nil
  exact JVal.str hb

theorem readStr_pairs (cfg : Cfg) {t s : Bytes} (h : StrBody True t s) (d : Utf8.Dec) (rest : Bytes) :
    ∃ s', readStr cfg d (t ++ 0x22 :: rest) = .ok (s', rest) ∧
      ((StrBody False t s ∧ s' = s) ∨ (4 ≤ s.length ∧ s.length + 2 ≤ s'.length)) := by
  induction h generalizing d with
  | nil => exact ⟨[], readStr_body cfg .nil d rest, .inl ⟨.nil, rfl⟩⟩
  | raw hs h20 h2 h3 _ ih =>
    obtain ⟨d', hd⟩ := readStr_raw cfg d _ (isScalar_lt hs) h2 h3
    obtain ⟨s', e, h⟩ := ih d'
    rw [List.append_assoc, hd, e, pre_ok]
    refine ⟨_, rfl, ?_⟩
    rcases h with ⟨h, rfl⟩ | h
    · exact .inl ⟨.raw hs h20 h2 h3 h, rfl⟩
    · right; simp only [List.length_append]; omega
  | esc he _ ih =>
    obtain ⟨s', e, h⟩ := ih d
    rw [List.cons_append, List.cons_append, readStr_esc cfg d _ _ he, e, pre_ok]
    refine ⟨_, rfl, ?_⟩
    rcases h with ⟨h, rfl⟩ | h
    · exact .inl ⟨.esc he h, rfl⟩
    · right; simp only [List.length_append, List.length_cons, List.length_nil]; omega
  | uni hx hs _ ih =>
    obtain ⟨s', e, h⟩ := ih d
    rw [List.append_assoc, (readStr_uni cfg d _ _ hx _).1, e, pre_ok]
    refine ⟨_, rfl, ?_⟩
    rcases h with ⟨h, rfl⟩ | h
    · exact .inl ⟨.uni hx hs h, rfl⟩
    · right; simp only [List.length_append]; omega
  | @pair x h y l t s _ hx h1 h2 hy l1 l2 _ ih =>
    obtain ⟨s', e, hc⟩ := ih d
    rw [List.append_assoc, (readStr_uni cfg d _ _ hx _).1, List.append_assoc, (readStr_uni cfg d _ _ hy _).1, e, pre_ok, pre_ok]
    refine ⟨_, rfl, .inr ?_⟩
    have a : ∀ w, 0xD800 ≤ w → w < 0xE000 → (utf8 w).length = 3 := by
      intro w h1 h2
      unfold utf8
      rw [if_neg (by omega), if_neg (by omega), if_pos (by omega)]; rfl
    have b : (utf8 (0x10000 + (h - 0xD800) * 1024 + (l - 0xDC00))).length = 4 := by
      unfold utf8
      rw [if_neg (by omega), if_neg (by omega), if_neg (by omega)]; rfl
    simp only [List.length_append, a h (by omega) (by omega), a l (by omega) (by omega), b]
    rcases hc with ⟨-, rfl⟩ | hc <;> omega

/-- C05 fails for every string with a surrogate pair in it: the text is accepted, but what is read is longer by at least
two bytes than what the text denotes. -/
theorem C05_violation_pairs (cfg : Cfg) (t s rest : Bytes) (h : StrBody True t s) (hp : ¬ StrBody False t s) :
    ∃ s', parse cfg ((0x22 :: (t ++ [0x22])) ++ rest) = .ok (.str s', rest) ∧ s.length + 2 ≤ s'.length := by
  obtain ⟨s', e, hs⟩ := readStr_pairs cfg h Utf8.Dec.init rest
  rcases hs with ⟨h, -⟩ | ⟨h4, hs⟩
  · exact absurd h hp
  · refine ⟨s', ?_, hs⟩
    unfold parse
    rw [List.cons_append, parseV_head _ _ _ _ (by decide)]
    simp only [List.append_assoc, List.singleton_append]
    rw [if_neg (by decide), if_neg (by decide), if_pos trivial, e]
    simp only [Res.bind_ok, Res.pure_eq]
    unfold stringValue
    rw [if_neg (by rintro rfl; simp at hs; omega), if_neg (by rintro rfl; simp at hs; omega)]

example : StrBody True (ascii "\\uD83D\\uDE00") [0xF0, 0x9F, 0x98, 0x80] ∧ ¬ StrBody False (ascii "\\uD83D\\uDE00") [0xF0, 0x9F, 0x98, 0x80] := by
  have h1 : Esc4 (ascii "\\uD83D") (4096 * 13 + 256 * 8 + 16 * 3 + 13) :=
    .mk (.up (by decide) (by decide)) (.dec (by decide) (by decide)) (.dec (by decide) (by decide)) (.up (by decide) (by decide))
  have h2 : Esc4 (ascii "\\uDE00") (4096 * 13 + 256 * 14 + 16 * 0 + 0) :=
    .mk (.up (by decide) (by decide)) (.up (by decide) (by decide)) (.dec (by decide) (by decide)) (.dec (by decide) (by decide))
  refine ⟨StrBody.pair (pairs := True) trivial h1 (by decide) (by decide) h2 (by decide) (by decide) .nil, fun h => ?_⟩
  have := readStr_body {} h Utf8.Dec.init []
  exact absurd this (by decide +kernel)

/-- C05 does not hold for the string "∞": it becomes a floating point infinity. -/
theorem C05_violation_infinity :
    JVal True [0x22, 0xE2, 0x88, 0x9E, 0x22] (.str [0xE2, 0x88, 0x9E]) ∧
    parse {} [0x22, 0xE2, 0x88, 0x9E, 0x22] = .ok (.num (.inf false), []) := by
  refine ⟨?_, by decide +kernel⟩
  have hb : StrBody True (utf8 0x221E ++ []) (utf8 0x221E ++ []) := StrBody.raw (by decide) (by decide) (by decide) (by decide) .nil
  exact JVal.str hb

/-- The parser is not restricted to the grammar: a malformed `\u` escape is accepted (the exception of parser.h:437 is
not thrown), bad digits count as zero. -/
theorem C05_note_bad_escape_accepted :
    parse {} (ascii "\"\\u00z1\"") = .ok (.str [0x01], []) := by decide +kernel

/-! ## C06 -/

/-- C06: on every byte sequence and in every mode the parser returns or throws (no undefined outcome, no endless
recursion); when it returns, it has consumed a non-empty prefix and left the rest as it was. -/
theorem C06_total (cfg : Cfg) (s : Bytes) :
    parse cfg s = .err ∨ ∃ v p r, p ≠ [] ∧ s = p ++ r ∧ parse cfg s = .ok (v, r) := by
  have hg := (parse_good cfg (2 * s.length + 1)).1 s (Nat.le_refl _)
  cases h : parse cfg s with
  | err => exact Or.inl rfl
  | ok x =>
    right
    obtain ⟨v, r⟩ := x
    have hl := parse_progress cfg s v r h
    unfold parse at h
    rw [h] at hg
    obtain ⟨p, hp⟩ := hg
    refine ⟨v, p, r, ?_, hp.symm, rfl⟩
    rintro rfl
    rw [← hp] at hl
    simp at hl
  | _ => unfold parse at h; rw [h] at hg; exact hg.elim

/-- C06: the bound on the recursion is only a technical device: any recursion depth that suffices gives the same. -/
theorem C06_fuel_irrelevant (cfg : Cfg) (s : Bytes) (f : Nat) (h : parseV cfg f s ≠ .fuel) :
    parseV cfg f s = parse cfg s := (parse_of_fuel cfg s f _ rfl h).symm

/-- C06 for `Value::fromString`. -/
theorem C06_fromString (tooLong : Nat → Bool) (s : Bytes) :
    fromString tooLong s = .err ∨ ∃ v, fromString tooLong s = .ok v := by
  unfold fromString
  rcases C06_total { tooLong := tooLong } s with h | ⟨v, p, r, -, -, h⟩
  · rw [h]; exact Or.inl rfl
  · rw [h]; exact Or.inr ⟨v, rfl⟩

example : parse {} (ascii " [1,{\"x\":\"y\"}] tail") = .ok (.arr [.num (.uint 1), .obj [(ascii "x", .str (ascii "y"))]], ascii " tail") := by
  decide +kernel
example : parse {} (ascii "[1,") = .err := by decide +kernel

/-! ## C07 -/

theorem parse_digits_head (cfg : Cfg) (c : Nat) (r : Bytes) (h : isDigit c = true ∨ c = 0x2B ∨ c = 0x2D) :
    parse cfg (c :: r) = parseNumber cfg (c :: r) := by
  have h' : (48 ≤ c ∧ c ≤ 57) ∨ c = 0x2B ∨ c = 0x2D := by simpa [isDigit] using h
  have hs : isSpace c = false := by
    have h1 : ¬ c ≤ 13 := by omega
    have h2 : c ≠ 32 := by omega
    simp [isSpace, h1, h2]
  unfold parse
  rw [parseV_head _ _ _ _ hs, if_neg (by omega), if_neg (by omega), if_neg (by omega), if_neg (by omega),
    if_neg (by omega), if_neg (by omega), if_pos]
  rcases h with h | h | h
  · exact Or.inl h
  · exact Or.inr (Or.inl h)
  · exact Or.inr (Or.inr (Or.inl h))

theorem parseNumber_plus (cfg : Cfg) (hc : cfg.precise = false) (ds rest : Bytes) (hd : Digits1 ds) :
    parseNumber cfg (0x2B :: (ds ++ rest)) = parseNumber cfg (ds ++ rest) := by
  unfold parseNumber
  rw [if_neg (by simp [hc]), if_neg (by simp [hc]), readSign_digits ds rest hd]
  have : readSign (0x2B :: (ds ++ rest)) = (false, ds ++ rest) := by simp [readSign]
  rw [this]

/-- Signed integer literals in one lemma. -/
theorem parse_int_literal (cfg : Cfg) (hc : cfg.precise = false) (sg ds rest : Bytes)
    (hs : sg = [] ∨ sg = [0x2B] ∨ sg = [0x2D]) (hd : Digits1 ds) (hl : cfg.tooLong (decVal ds) = false)
    (hr : StopNum rest) :
    parse cfg (sg ++ (ds ++ rest)) = .ok (.num (interpInt (decide (sg = [0x2D])) (decVal ds)), rest) := by
  have key : ∀ neg, parseNumber cfg (NumTok.text ⟨neg, ds, none, none⟩ ++ rest) = .ok (.num (interpInt neg (decVal ds)), rest) := by
    intro neg
    rw [parseNumber_text cfg hc ⟨neg, ds, none, none⟩ ⟨hd, by simp, by simp⟩ ⟨hl, by simp [ExpFits]⟩ rest hr]
    simp [interpNum]
  obtain ⟨d, ds', rfl⟩ : ∃ d ds', ds = d :: ds' := List.exists_cons_of_ne_nil hd.1
  have hdig := (isDigit_iff d).2 (hd.2 d (by simp))
  rcases hs with rfl | rfl | rfl
  · have := key false
    simp only [NumTok.text, fracText, expText, List.append_nil, List.nil_append, Bool.false_eq_true, if_false] at this
    rw [List.nil_append, List.cons_append, parse_digits_head cfg _ _ (Or.inl hdig), ← List.cons_append, this]
    rfl
  · have := key false
    simp only [NumTok.text, fracText, expText, List.append_nil, List.nil_append, Bool.false_eq_true, if_false] at this
    rw [List.singleton_append, parse_digits_head cfg _ _ (Or.inr (Or.inl rfl)), parseNumber_plus cfg hc _ _ hd, this]
    rfl
  · have := key true
    simp only [NumTok.text, fracText, expText, List.append_nil, if_true, List.singleton_append, List.cons_append, List.nil_append] at this
    rw [List.singleton_append, parse_digits_head cfg _ _ (Or.inr (Or.inr rfl)), List.cons_append, this]
    rfl

/-- C07: a literal without minus, of any length and with any number of leading zeros, whose value is below 2^64 is
parsed to exactly that unsigned integer. -/
theorem C07_unsigned (cfg : Cfg) (hc : cfg.precise = false) (sg ds rest : Bytes) (hs : sg = [] ∨ sg = [0x2B])
    (hd : Digits1 ds) (hl : cfg.tooLong (decVal ds) = false) (hr : StopNum rest) (hv : decVal ds < 2 ^ 64) :
    parse cfg (sg ++ (ds ++ rest)) = .ok (.num (.uint (decVal ds)), rest) := by
  have hm : sg ≠ [0x2D] := by rcases hs with rfl | rfl <;> decide
  rw [parse_int_literal cfg hc sg ds rest (by tauto) hd hl hr]
  simp [interpInt, hm, hv]

/-- C07: a literal with minus and magnitude below 2^63 is parsed to exactly that integer. -/
theorem C07_negative (cfg : Cfg) (hc : cfg.precise = false) (ds rest : Bytes) (hd : Digits1 ds)
    (hl : cfg.tooLong (decVal ds) = false) (hr : StopNum rest) (hv : decVal ds < 2 ^ 63) :
    parse cfg (0x2D :: (ds ++ rest)) =
      .ok (.num (if decVal ds = 0 then .uint 0 else .int (-(decVal ds : Int))), rest) := by
  have := parse_int_literal cfg hc [0x2D] ds rest (by tauto) hd hl hr
  rw [List.singleton_append] at this
  rw [this]
  simp [interpInt, hv]

/-- C07: everything else goes to the floating point path with all its digits; nothing is wrapped. -/
theorem C07_large (cfg : Cfg) (hc : cfg.precise = false) (sg ds rest : Bytes)
    (hs : sg = [] ∨ sg = [0x2B] ∨ sg = [0x2D]) (hd : Digits1 ds) (hl : cfg.tooLong (decVal ds) = false)
    (hr : StopNum rest) (hv : if sg = [0x2D] then 2 ^ 63 ≤ decVal ds else 2 ^ 64 ≤ decVal ds) :
    parse cfg (sg ++ (ds ++ rest)) = .ok (.num (.dbl ⟨decide (sg = [0x2D]), decVal ds, 0, 0, 0⟩), rest) := by
  rw [parse_int_literal cfg hc sg ds rest hs hd hl hr]
  by_cases hm : sg = [0x2D]
  · rw [if_pos hm] at hv
    have h0 : decVal ds ≠ 0 := by omega
    have h1 : ¬ decVal ds < 2 ^ 63 := by omega
    simp [interpInt, hm, h0, h1]
  · rw [if_neg hm] at hv
    have h1 : ¬ decVal ds < 2 ^ 64 := by omega
    simp [interpInt, hm, h1]

example : Digits1 (ascii "00018446744073709551615") ∧ decVal (ascii "00018446744073709551615") = 2 ^ 64 - 1 ∧ StopNum (ascii "]") :=
  ⟨by decide, by decide +kernel, by intro c r h; cases h; decide⟩
example : decVal (ascii "18446744073709551616") = 2 ^ 64 ∧ Digits1 (ascii "18446744073709551616") := by decide +kernel

/-- C07, boundary: the most negative 64-bit integer is the one integer in range that is read as floating point (its
decimal is still exact). -/
theorem C07_violation_min : parse {} (ascii "-9223372036854775808") = .ok (.num (.dbl ⟨true, 2 ^ 63, 0, 0, 0⟩), []) := by
  decide +kernel

/-! ## C09 -/

/-- C09: a text whose object (at any depth) has a key twice is rejected, wherever the duplicates are. -/
theorem C09_rejected (cfg : Cfg) (w t rest : Bytes) (v : SJ) (hw : Ws w) (h : JVal False t v) (hn : NumsFit cfg v)
    (hd : ¬ DupFree cfg v) (hr : StopNum rest) : parse cfg (w ++ (t ++ rest)) = .err :=
  parse_dup cfg h hn hd w rest hw hr

/-- C09: with `allowDupKeys` the object is accepted; it has one member per key, with the last value. -/
theorem C09_allowed (cfg : Cfg) (ha : cfg.allowDup = true) (w t rest : Bytes) (l : List (Bytes × SJ)) (hw : Ws w)
    (h : JMembs False t l) (hn : NumsFit cfg (.obj l)) (hi : NoInf (.obj l)) (hr : StopNum rest) (hd : DupFree cfg (.obj l)) :
    ∃ o l', parse cfg (w ++ ((0x7B :: (t ++ [0x7D])) ++ rest)) = .ok (.obj o, rest) ∧ MeansM cfg l l' ∧
      (o.map (·.1)).Nodup ∧ (∀ k, k ∈ o.map (·.1) ↔ k ∈ l.map (·.1)) ∧ ∀ k, lookup o k = lastVal l' k := by
  have hp := parse_grammar cfg (JVal.obj h) ⟨hn, hd⟩ w rest hw hr
  rw [interpV] at hp
  refine ⟨_, interpM cfg l, hp, interpM_means cfg l (by simpa [NoInf] using hi), ?_, ?_, ?_⟩
  · exact Obj.strictSorted_nodup (Obj.mkObject_sorted _ _ _)
  · intro k
    rw [Obj.mkObject_keys, ← interpM_keys cfg l]; rfl
  · intro k
    rw [Obj.lookup_eq_lastVal (Obj.mkObject_sorted _ _ _), Obj.mkObject_lastVal]; rfl

/-- With the flag, `DupFree` holds for every value (the hypothesis of `C09_allowed` is always met). -/
theorem C09_dupFree_allowed (cfg : Cfg) (ha : cfg.allowDup = true) : (v : SJ) → DupFree cfg v := by
  have main : (∀ v, DupFree cfg v) := by
    intro v
    refine SJ.rec (motive_1 := fun v => DupFree cfg v) (motive_2 := fun l => DupFreeL cfg l)
      (motive_3 := fun l => DupFreeM cfg l) (motive_4 := fun m => DupFree cfg m.2) ?_ ?_ ?_ ?_ ?_ ?_ ?_ ?_ ?_ ?_ ?_ v
    · simp [DupFree]
    · simp [DupFree]
    · simp [DupFree]
    · simp [DupFree]
    · intro l h; simpa [DupFree] using h
    · intro l h; simpa [DupFree, ha] using h
    · simp [DupFreeL]
    · intro v l h1 h2; simp only [DupFreeL]; exact ⟨h1, h2⟩
    · simp [DupFreeM]
    · intro m l h1 h2
      obtain ⟨k, v⟩ := m
      simp only [DupFreeM]; exact ⟨h1, h2⟩
    · intro k v h; exact h
  exact main

example : parse {} (ascii "{\"a\":1,\"b\":2,\"a\":3}") = .err := by decide +kernel
example : parse { allowDup := true } (ascii "{\"a\":1,\"b\":2,\"a\":3}") =
    .ok (.obj [(ascii "a", .num (.uint 3)), (ascii "b", .num (.uint 2))], []) := by decide +kernel

/-! ## C10 -/

theorem takeSign_append (s : Bytes) : (takeSign s).1 ++ (takeSign s).2 = s := by
  unfold takeSign
  split
  · rfl
  · split <;> rfl

theorem takeFrac_append (s : Bytes) : (takeFrac s).1 ++ (takeFrac s).2 = s := by
  unfold takeFrac
  split
  · rfl
  · split
    · simp [spanDigits_append]
    · rfl

theorem parsePrecise_decomp (s : Bytes) (p : Bytes × Bool × Bytes) (h : parsePrecise s = .ok p) : s = p.1 ++ p.2.2 := by
  unfold parsePrecise at h
  dsimp only at h
  have h1 := takeSign_append s
  have h2 := spanDigits_append (takeSign s).2
  have h3 := takeFrac_append (spanDigits (takeSign s).2).2
  split at h
  · cases h
  · split at h
    · rename_i he
      cases h
      rw [he] at h3
      simp only [List.append_nil] at h3 ⊢
      rw [List.append_assoc, h3, h2, h1]
    · rename_i c cs he
      rw [he] at h3
      have h4 := takeSign_append cs
      have h5 := spanDigits_append (takeSign cs).2
      split at h
      · split at h
        · cases h
        · cases h
          simp only [List.append_assoc, List.cons_append, List.nil_append]
          rw [h5, h4, h3, h2, h1]
      · cases h
        simp only [List.append_assoc]
        rw [h3, h2, h1]

/-- C10: with `allowPreciseNumbers`, whenever parsing (any input) yields a number that is not an infinity (written as a
string), the number consists of exactly the text consumed after the white space, and serialising gives that text. -/
theorem C10_keeps_text (cfg : Cfg) (hc : cfg.precise = true) (s : Bytes) (n : JNum) (r : Bytes)
    (h : parse cfg s = .ok (.num n, r)) : (∃ b, n = .inf b) ∨
      ∃ w txt cls, s = w ++ (txt ++ r) ∧ (∀ c ∈ w, isSpace c = true) ∧ n = .prec txt cls ∧
        ∀ u f, Ser.ser u f (.num n) = txt := by
  unfold parse at h
  rw [parseV.eq_def] at h
  dsimp only at h
  split at h
  · cases h
  · rename_i c r0 he
    have hsplit : s = s.takeWhile isSpace ++ (c :: r0) := by
      rw [← he]; exact (List.takeWhile_append_dropWhile).symm
    split at h
    · split at h
      · cases h
      · split at h
        · cases h
        · obtain ⟨m, -, hfin⟩ := bind_ok_inv h
          unfold finishObj at hfin
          dsimp only at hfin
          split at hfin <;> cases hfin
    · split at h
      · split at h
        · cases h
        · split at h
          · cases h
          · obtain ⟨m, -, hfin⟩ := bind_ok_inv h
            cases hfin
      · split at h
        · obtain ⟨m, -, hfin⟩ := bind_ok_inv h
          left
          simp only [Res.pure_eq, Res.ok.injEq, Prod.mk.injEq] at hfin
          obtain ⟨hv, -⟩ := hfin
          unfold stringValue at hv
          split at hv
          · cases hv; exact ⟨_, rfl⟩
          · split at hv
            · cases hv; exact ⟨_, rfl⟩
            · cases hv
        · split at h
          · obtain ⟨m, -, hfin⟩ := bind_ok_inv h; cases hfin
          · split at h
            · obtain ⟨m, -, hfin⟩ := bind_ok_inv h; cases hfin
            · split at h
              · obtain ⟨m, -, hfin⟩ := bind_ok_inv h; cases hfin
              · split at h
                · right
                  unfold parseNumber at h
                  rw [if_pos hc] at h
                  obtain ⟨p, hp, hfin⟩ := bind_ok_inv h
                  have hd := parsePrecise_decomp _ p hp
                  obtain ⟨cls, hcls⟩ := numberFromStringRaw_prec p.1 p.2.1
                  rw [hcls] at hfin
                  cases hfin
                  refine ⟨s.takeWhile isSpace, p.1, cls, ?_, ?_, rfl, ?_⟩
                  · rw [← hd, ← hsplit]
                  · intro x hx
                    exact List.mem_takeWhile_imp hx
                  · intro u f
                    rw [Ser.ser, Ser.writeNum]
                · cases h

/-- C10: every JSON number token is accepted and kept. -/
theorem C10_accepts (cfg : Cfg) (hc : cfg.precise = true) (w : Bytes) (t : NumTok) (ht : t.WF) (rest : Bytes) (hw : Ws w)
    (hr : StopNum rest) :
    ∃ cls, parse cfg (w ++ (t.text ++ rest)) = .ok (.num (.prec t.text cls), rest) ∧
      ∀ u f, Ser.ser u f (.num (.prec t.text cls)) = t.text := by
  have hp := parse_grammar cfg (JVal.num ht) ⟨by simp [NumsFit, hc], by simp [DupFree]⟩ w rest hw hr
  obtain ⟨cls, hcls⟩ := numberFromStringRaw_prec t.text (decide (¬ (t.frac = none ∧ t.exp = none)))
  rw [interpV, if_pos hc, hcls] at hp
  exact ⟨cls, hp, fun u f => by rw [Ser.ser, Ser.writeNum]⟩

example : parse { precise := true } (ascii " -0012.3400e+05,") = .ok (.num (.prec (ascii "-0012.3400e+05") .dbl), ascii ",") := by
  decide +kernel

end Imt.Props
