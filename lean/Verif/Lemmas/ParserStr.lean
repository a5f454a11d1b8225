import Verif.Lemmas.ParserNum
import Verif.Lemmas.Utf8Spec
/-! # Lemmas on string and precise number parsing -/
namespace Imt.Parser
open Imt Spec Utf8

theorem utf8_eq (w : Nat) (h : w < 0x110000) : utf8 w = wideToUtf8 w := by
  unfold utf8
  split
  · rw [wide1 (by omega)]
  · split
    · rw [wide2 (by omega) (by omega)]
    · split
      · rw [wide3 (by omega) (by omega)]
      · rw [wide4 (by omega) (by omega)]

theorem isScalar_lt {w : Nat} (h : IsScalar w) : w < 0x110000 := by unfold IsScalar at h; omega

theorem storeUnicode_eq (w : Nat) (h : w < 0x110000) : storeUnicode w = utf8 w := by
  unfold storeUnicode
  rw [if_neg (by omega), utf8_eq w h]

theorem and_low (n k : Nat) (hk : k < 256) : n &&& k = (n % 256) &&& k := by
  have h1 : (n &&& k) % 2 ^ 8 = (n % 2 ^ 8) &&& (k % 2 ^ 8) := Nat.and_mod_two_pow
  have h2 : n &&& k ≤ k := Nat.and_le_right
  rw [Nat.mod_eq_of_lt (by omega), Nat.mod_eq_of_lt (a := k) (by omega)] at h1
  exact h1

/-- Sign extension does not matter to the decoder, except for bytes that never occur in UTF-8. -/
theorem step_ext (cfg : Cfg) (d : Dec) (c : Nat) (h : c < 0xF8) : d.step (cfg.ext c) = d.step c := by
  unfold Cfg.ext
  split
  · rename_i hs
    have hm : (2 ^ 32 - 256 + c) % 256 = c := by omega
    have e1 := and_low (2 ^ 32 - 256 + c) 0xC0 (by decide)
    have e2 := and_low (2 ^ 32 - 256 + c) 0xE0 (by decide)
    have e3 := and_low (2 ^ 32 - 256 + c) 0xF0 (by decide)
    have e4 := and_low (2 ^ 32 - 256 + c) 0xF8 (by decide)
    have f1 := and_low (2 ^ 32 - 256 + c) 0x3F (by decide)
    have f2 := and_low (2 ^ 32 - 256 + c) 0x1F (by decide)
    have f3 := and_low (2 ^ 32 - 256 + c) 0x0F (by decide)
    have f4 := and_low (2 ^ 32 - 256 + c) 0x07 (by decide)
    rw [hm] at e1 e2 e3 e4 f1 f2 f3 f4
    have g1 := maskC0 c (by omega)
    have g2 := maskE0 c (by omega)
    have g3 := maskF0 c (by omega)
    have g4 := maskF8 c (by omega)
    unfold Dec.step
    rw [e1, e2, e3, e4, f1, f2, f3, f4]
    rcases (by omega : (128 ≤ c ∧ c < 192) ∨ (192 ≤ c ∧ c < 224) ∨ (224 ≤ c ∧ c < 240) ∨ (240 ≤ c ∧ c < 248)) with
      h | h | h | h
    · simp only [g1.2 h, if_true]
    · have n1 : ¬ (c &&& 0xC0 = 0x80) := fun x => by have := g1.1 x; omega
      simp only [n1, g2.2 h, if_true, if_false]
    · have n1 : ¬ (c &&& 0xC0 = 0x80) := fun x => by have := g1.1 x; omega
      have n2 : ¬ (c &&& 0xE0 = 0xC0) := fun x => by have := g2.1 x; omega
      simp only [n1, n2, g3.2 h, if_true, if_false]
    · have n1 : ¬ (c &&& 0xC0 = 0x80) := fun x => by have := g1.1 x; omega
      have n2 : ¬ (c &&& 0xE0 = 0xC0) := fun x => by have := g2.1 x; omega
      have n3 : ¬ (c &&& 0xF0 = 0xE0) := fun x => by have := g3.1 x; omega
      simp only [n1, n2, n3, g4.2 h, if_true, if_false]
  · rfl

/-- Prepend to what a string reader emits. -/
def pre (p : Bytes) (x : Res (Bytes × Bytes)) : Res (Bytes × Bytes) := x >>= fun t => pure (p ++ t.1, t.2)

theorem pre_ok (p s r : Bytes) : pre p (.ok (s, r)) = .ok (p ++ s, r) := rfl
theorem pre_nil (x : Res (Bytes × Bytes)) : pre [] x = x := by cases x <;> rfl

theorem readStr_plain (cfg : Cfg) (d : Dec) (c : Nat) (cs : Bytes) (h1 : c < 0xF8) (h2 : c ≠ 0x22) (h3 : c ≠ 0x5C) :
    readStr cfg d (c :: cs) = pre (((d.step c).2.map storeUnicode).getD []) (readStr cfg (d.step c).1 cs) := by
  rw [readStr.eq_def]
  dsimp only
  rw [if_neg (by omega), if_neg h2, if_neg h3, step_ext cfg d c h1]
  rfl

/-- One raw scalar value. -/
theorem readStr_raw (cfg : Cfg) (d : Dec) (w : Nat) (hw : w < 0x110000) (h2 : w ≠ 0x22) (h3 : w ≠ 0x5C) :
    ∃ d', ∀ cs : Bytes, readStr cfg d (utf8 w ++ cs) = pre (utf8 w) (readStr cfg d' cs) := by
  have hs := storeUnicode_eq w hw
  unfold utf8 at hs ⊢
  by_cases c1 : w < 0x80
  · rw [if_pos c1] at hs ⊢
    refine ⟨d, fun cs => ?_⟩
    rw [List.singleton_append, readStr_plain cfg d w cs (by omega) h2 h3, Dec.step_ascii d w c1]
    simp [hs]
  rw [if_neg c1] at hs ⊢
  by_cases c2 : w < 0x800
  · rw [if_pos c2] at hs ⊢
    refine ⟨⟨w, 0⟩, fun cs => ?_⟩
    simp only [List.cons_append, List.nil_append]
    rw [readStr_plain cfg d _ _ (by omega) (by omega) (by omega), Dec.step_lead2 d _ (by omega)]
    dsimp only
    rw [readStr_plain cfg _ _ _ (by omega) (by omega) (by omega), Dec.step_last _ _ (by omega) (by omega)]
    have : w / 64 * 64 + w % 64 = w := by omega
    simp [this, hs, pre_nil]
  rw [if_neg c2] at hs ⊢
  by_cases c3 : w < 0x10000
  · rw [if_pos c3] at hs ⊢
    refine ⟨⟨w, 0⟩, fun cs => ?_⟩
    simp only [List.cons_append, List.nil_append]
    rw [readStr_plain cfg d _ _ (by omega) (by omega) (by omega), Dec.step_lead3 d _ (by omega)]
    dsimp only
    rw [readStr_plain cfg _ _ _ (by omega) (by omega) (by omega), Dec.step_more _ 0 _ (by omega) (by omega) (by omega)]
    dsimp only
    rw [readStr_plain cfg _ _ _ (by omega) (by omega) (by omega), Dec.step_last _ _ (by omega) (by omega)]
    have : (w / 4096 * 64 + w / 64 % 64) * 64 + w % 64 = w := by omega
    simp [this, hs, pre_nil]
  rw [if_neg c3] at hs ⊢
  refine ⟨⟨w, 0⟩, fun cs => ?_⟩
  simp only [List.cons_append, List.nil_append]
  rw [readStr_plain cfg d _ _ (by omega) (by omega) (by omega), Dec.step_lead4 d _ (by omega)]
  dsimp only
  rw [readStr_plain cfg _ _ _ (by omega) (by omega) (by omega), Dec.step_more _ 1 _ (by omega) (by omega) (by omega)]
  dsimp only
  rw [readStr_plain cfg _ _ _ (by omega) (by omega) (by omega), Dec.step_more _ 0 _ (by omega) (by omega) (by omega)]
  dsimp only
  rw [readStr_plain cfg _ _ _ (by omega) (by omega) (by omega), Dec.step_last _ _ (by omega) (by omega)]
  have : ((w / 262144 * 64 + w / 4096 % 64) * 64 + w / 64 % 64) * 64 + w % 64 = w := by omega
  simp [this, hs, pre_nil]

theorem hexDigit_eq {c v : Nat} (h : HexDig c v) : hexDigit c = v ∧ v < 16 := by
  unfold hexDigit isDigit
  cases h with
  | dec h1 h2 => simp [h1, h2]; omega
  | up h1 h2 =>
    have : ¬ c ≤ 57 := by omega
    simp [this, h1, h2]; omega
  | lo h1 h2 =>
    have e1 : ¬ c ≤ 57 := by omega
    have e2 : ¬ c ≤ 70 := by omega
    simp [e1, e2, h1, h2]; omega

theorem readStr_uni (cfg : Cfg) (d : Dec) (x : Bytes) (w : Nat) (h : Esc4 x w) (cs : Bytes) :
    readStr cfg d (x ++ cs) = pre (utf8 w) (readStr cfg d cs) ∧ w < 65536 := by
  obtain ⟨ha, hb, hc, hd⟩ := h
  rename_i a b c e a' b' c' e'
  have ha := hexDigit_eq ha
  have hb := hexDigit_eq hb
  have hc := hexDigit_eq hc
  have hd := hexDigit_eq hd
  refine ⟨?_, by omega⟩
  rw [readStr.eq_def]
  dsimp only [List.cons_append, List.nil_append]
  rw [if_neg (fun h => absurd h.1 (by decide)), if_neg (by decide), if_pos rfl, if_pos rfl, ha.1, hb.1, hc.1, hd.1]
  have : ((a' * 16 + b') * 16 + c') * 16 + e' = 4096 * a' + 256 * b' + 16 * c' + e' := by omega
  rw [this, storeUnicode_eq _ (by omega)]
  rfl

theorem readStr_esc (cfg : Cfg) (d : Dec) (e c : Nat) (h : Esc1 e c) (cs : Bytes) :
    readStr cfg d (0x5C :: e :: cs) = pre [c] (readStr cfg d cs) := by
  rw [readStr.eq_def]
  dsimp only
  rw [if_neg (fun h => absurd h.1 (by decide)), if_neg (by decide), if_pos rfl]
  cases h <;> rfl

/-- A grammatical string body (without surrogate pairs) is read to what it denotes. -/
theorem readStr_body (cfg : Cfg) {t s : Bytes} (h : StrBody False t s) (d : Dec) (rest : Bytes) :
    readStr cfg d (t ++ 0x22 :: rest) = .ok (s, rest) := by
  induction h generalizing d with
  | nil =>
    rw [List.nil_append, readStr.eq_def]
    dsimp only
    rw [if_neg (fun h => absurd h.1 (by decide)), if_pos rfl]
  | raw hs h20 h2 h3 _ ih =>
    obtain ⟨d', hd⟩ := readStr_raw cfg d _ (isScalar_lt hs) h2 h3
    rw [List.append_assoc, hd, ih, pre_ok]
  | esc he _ ih => rw [List.cons_append, List.cons_append, readStr_esc cfg d _ _ he, ih, pre_ok]; rfl
  | uni hx hs _ ih => rw [List.append_assoc, (readStr_uni cfg d _ _ hx _).1, ih, pre_ok]
  | pair hp => exact hp.elim

/-- Precise mode: a number token followed by something that does not continue it keeps its text. -/
theorem parsePrecise_text (t : NumTok) (h : t.WF) (rest : Bytes) (hr : StopNum rest) :
    parsePrecise (t.text ++ rest) = .ok (t.text, decide (¬ (t.frac = none ∧ t.exp = none)), rest) := by
  obtain ⟨neg, int, frac, exp⟩ := t
  obtain ⟨⟨hd, -⟩, hfr, hex⟩ := h
  dsimp only at hd hfr hex
  have he := expText_stop exp rest hr (fun x h => (hex x h).1)
  have hfs : StopDig (fracText frac ++ (expText exp ++ rest)) := by
    cases frac with
    | none => simpa [fracText] using he.1
    | some f =>
      intro c r h
      simp only [fracText, List.cons_append, List.cons.injEq] at h
      rw [← h.1]; decide
  have hsg : takeSign (NumTok.text ⟨neg, int, frac, exp⟩ ++ rest) =
      (if neg then [0x2D] else [], int ++ (fracText frac ++ (expText exp ++ rest))) := by
    cases neg
    · simp only [NumTok.text, List.append_assoc]
      exact takeSign_digits int _ hd
    · simp [NumTok.text, takeSign]
  have hfrac : takeFrac (fracText frac ++ (expText exp ++ rest)) = (fracText frac, expText exp ++ rest) := by
    cases frac with
    | none =>
      simp only [fracText, List.nil_append]
      generalize hX : expText exp ++ rest = X at *
      cases X with
      | nil => rfl
      | cons c r => rw [takeFrac, if_neg (he.2 c r rfl)]
    | some f =>
      simp only [fracText, List.cons_append, takeFrac, if_true]
      rw [spanDigits_run f _ (hfr f rfl).2 he.1]
  unfold parsePrecise
  dsimp only
  rw [hsg]
  dsimp only
  rw [spanDigits_run int _ hd.2 hfs]
  dsimp only
  rw [if_neg hd.1, hfrac]
  dsimp only
  cases exp with
  | none =>
    simp only [expText, List.nil_append]
    have hff : decide (fracText frac ≠ []) = decide (¬ (frac = none ∧ (none : Option (Nat × Bytes × Bytes)) = none)) := by
      cases frac <;> simp [fracText]
    cases rest with
    | nil => dsimp only; rw [hff]; simp [NumTok.text, expText]
    | cons c r =>
      have := hr c r rfl
      dsimp only
      rw [if_neg (by omega), hff]
      simp [NumTok.text, expText]
  | some e =>
    obtain ⟨ch, sg, ds⟩ := e
    obtain ⟨hE, hs, hed⟩ := hex _ rfl
    dsimp only at hE hs hed
    simp only [expText, List.cons_append, List.append_assoc]
    rw [if_pos hE]
    have hts : takeSign (sg ++ (ds ++ rest)) = (sg, ds ++ rest) := by
      rcases hs with rfl | rfl | rfl
      · simpa using takeSign_digits ds rest hed
      · simp [takeSign]
      · simp [takeSign]
    rw [hts]
    dsimp only
    rw [spanDigits_run ds rest hed.2 hr.dig]
    dsimp only
    rw [if_neg hed.1]
    simp [NumTok.text, expText]

end Imt.Parser
