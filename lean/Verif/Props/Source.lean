import Verif.Props.Leaves

/-!
# What was read from well-formed text is written and read again as it was (C177)
-/

namespace Imt.Props
open Imt Imt.Parser Imt.Spec Imt.Ser

/-- The four bytes after every `\u` of the text are ASCII. (A `\u` whose digits are not hexadecimal is accepted, parser.h:432-437, and may
then swallow a part of a character.) -/
def UniAscii (s : Bytes) : Prop := ∀ a r : Bytes, s = a ++ 0x5C :: 0x75 :: r → ∀ c ∈ r.take 4, c < 0x80

theorem UniAscii.tail {a s : Bytes} (h : UniAscii (a ++ s)) : UniAscii s :=
  fun b r e c hc => h (a ++ b) r (by rw [e, List.append_assoc]) c hc

/-- Code points, also halves of surrogate pairs, each written on its own; for escaped output none above U+FFFF. -/
def WideStr (u8 : Bool) (b : Bytes) : Prop :=
  ∃ ws : List Nat, (∀ w ∈ ws, w < 0x110000 ∧ (u8 = true ∨ w < 0x10000)) ∧ b = Utf8.encode ws

theorem wide_nil (u8 : Bool) : WideStr u8 [] := ⟨[], by simp, rfl⟩

theorem wide_cons {u8 : Bool} {w : Nat} (h : w < 0x110000 ∧ (u8 = true ∨ w < 0x10000)) {b : Bytes} (hb : WideStr u8 b) :
    WideStr u8 (utf8 w ++ b) := by
  obtain ⟨ws, h1, rfl⟩ := hb
  refine ⟨w :: ws, ?_, by rw [Utf8.encode_cons, utf8_eq w h.1]⟩
  intro x hx
  rcases List.mem_cons.1 hx with rfl | hx
  · exact h
  · exact h1 x hx

theorem strOk_wide {u8 : Bool} {s : Bytes} (h : StrOk u8 s) : WideStr u8 s := by
  obtain ⟨hw, hb⟩ := h
  obtain ⟨ws, hs, rfl⟩ := Utf8.encode_of_wf hw
  refine ⟨ws, fun w hx => ?_, rfl⟩
  have hsc := hs w hx
  have hlt : w < 0x110000 := by unfold IsScalar at hsc; omega
  refine ⟨hlt, ?_⟩
  rcases hb with hb | hb
  · exact Or.inl hb
  · right
    apply Classical.byContradiction
    intro hn
    have := hb (240 + w / 262144) (by
      rw [Utf8.encode, List.mem_flatMap]
      exact ⟨w, hx, by rw [Utf8.wide4 (by omega) (by omega)]; simp⟩)
    omega

theorem encode_head {c : Nat} (hc : c < 128) {ws : List Nat} (hw : ∀ w ∈ ws, w < 0x110000) {r : Bytes} (h : Utf8.encode ws = c :: r) :
    ∃ ws', ws = c :: ws' ∧ r = Utf8.encode ws' := by
  cases ws with
  | nil => cases h
  | cons w ws =>
    have hlt := hw w (by simp)
    rw [Utf8.encode_cons] at h
    by_cases h1 : w < 128
    · rw [Utf8.wide1 h1] at h
      cases h
      exact ⟨ws, rfl, rfl⟩
    · rw [← utf8_eq w hlt, utf8, if_neg (by omega)] at h
      split at h
      · cases h; omega
      · split at h
        · cases h; omega
        · cases h; omega

theorem wide_drop {u8 : Bool} {a : Bytes} (ha : ∀ c ∈ a, c < 128) : ∀ {r : Bytes}, WideStr u8 (a ++ r) → WideStr u8 r := by
  induction a with
  | nil => intro r h; exact h
  | cons c a ih =>
    intro r h
    obtain ⟨ws, h1, h2⟩ := h
    obtain ⟨ws', rfl, h3⟩ := encode_head (ha c (by simp)) (fun w hw => (h1 w hw).1) h2.symm
    exact ih (fun x hx => ha x (by simp [hx])) ⟨ws', fun w hw => h1 w (by simp [hw]), h3⟩

/-- What is left of the text, and that its escapes are fine. -/
def AscSrc (u8 : Bool) (s : Bytes) : Prop := WideStr u8 s ∧ UniAscii s

theorem AscSrc.drop {u8 : Bool} {a r : Bytes} (h : AscSrc u8 (a ++ r)) (ha : ∀ c ∈ a, c < 128) : AscSrc u8 r :=
  ⟨wide_drop ha h.1, h.2.tail⟩

theorem AscSrc.one {u8 : Bool} {c : Nat} {r : Bytes} (h : AscSrc u8 (c :: r)) (hc : c < 128) : AscSrc u8 r :=
  AscSrc.drop (a := [c]) h (by simpa using hc)

theorem simpleEsc_lt {e b : Nat} (h : simpleEsc e = some b) : e < 128 ∧ b < 128 := by
  unfold simpleEsc at h
  repeat' split at h
  all_goals cases h
  all_goals omega

theorem hexDigit_lt (c : Nat) : hexDigit c < 16 := by
  unfold hexDigit isDigit
  split
  · next h => simp at h; omega
  · split
    · omega
    · split <;> omega

/-- A string read from such a text consists of code points, and so does what is left. -/
theorem readStr_wideA (cfg : Cfg) (u8 : Bool) : ∀ (n : Nat) (s : Bytes), s.length ≤ n → ∀ (d : Utf8.Dec) (b r : Bytes),
    readStr cfg d s = .ok (b, r) → AscSrc u8 s → WideStr u8 b ∧ AscSrc u8 r := by
  intro n
  induction n with
  | zero =>
    intro s hn d b r h
    cases s with
    | nil => rw [readStr.eq_def] at h; cases h
    | cons => simp at hn
  | succ n ih =>
    intro s hn d b r h hg
    obtain ⟨⟨ws, h1, h2⟩, hu⟩ := id hg
    cases ws with
    | nil => rw [h2, Utf8.encode, List.flatMap_nil, readStr.eq_def] at h; cases h
    | cons w ws =>
      have hw := h1 w (by simp)
      have hrest : WideStr u8 (Utf8.encode ws) := ⟨ws, fun x hx => h1 x (by simp [hx]), rfl⟩
      rw [Utf8.encode_cons] at h2
      by_cases hq : w = 0x22
      · subst hq
        rw [Utf8.wide1 (by decide), List.singleton_append] at h2
        rw [h2, readStr.eq_def] at h
        dsimp only at h
        rw [if_neg (fun h => absurd h.1 (by decide)), if_pos rfl] at h
        cases h
        rw [h2] at hg
        exact ⟨wide_nil u8, hg.one (by decide)⟩
      · by_cases hb : w = 0x5C
        · subst hb
          rw [Utf8.wide1 (by decide), List.singleton_append] at h2
          rw [h2, readStr.eq_def] at h
          dsimp only at h
          rw [if_neg (fun h => absurd h.1 (by decide)), if_neg (by decide), if_pos rfl] at h
          rw [h2] at hg hn
          have hg1 := hg.one (by decide)
          split at h
          · cases h
          · next e es he =>
            rw [he] at hg hg1 hn
            split at h
            · next h75 =>
              subst h75
              have hg2 := hg1.one (by decide)
              split at h
              · next a1 a2 a3 a4 r0 =>
                have ha := hg.2 [] _ rfl
                have hg3 : AscSrc u8 r0 := AscSrc.drop (a := [a1, a2, a3, a4]) hg2 (by simpa using ha)
                obtain ⟨⟨b', r'⟩, e1, e2⟩ := bind_ok_inv h
                cases e2
                obtain ⟨i1, i2⟩ := ih r0 (by simp at hn; omega) d b' r' e1 hg3
                refine ⟨?_, i2⟩
                have x1 := hexDigit_lt a1
                have x2 := hexDigit_lt a2
                have x3 := hexDigit_lt a3
                have x4 := hexDigit_lt a4
                rw [storeUnicode_eq _ (by omega)]
                exact wide_cons ⟨by omega, Or.inr (by omega)⟩ i1
              · cases h
            · split at h
              · next b0 hb0 =>
                obtain ⟨l1, l2⟩ := simpleEsc_lt hb0
                obtain ⟨⟨b', r'⟩, e1, e2⟩ := bind_ok_inv h
                cases e2
                obtain ⟨i1, i2⟩ := ih es (by simp at hn; omega) d b' r' e1 (hg1.one l1)
                refine ⟨?_, i2⟩
                have := wide_cons (u8 := u8) (w := b0) ⟨by omega, Or.inr (by omega)⟩ i1
                rw [utf8, if_pos l2] at this
                exact this
              · cases h
        · obtain ⟨d', hd⟩ := readStr_raw cfg d w hw.1 hq hb
          rw [← utf8_eq w hw.1] at h2
          rw [h2, hd] at h
          obtain ⟨⟨b', r'⟩, e1, e2⟩ := bind_ok_inv h
          cases e2
          have hl : 0 < (utf8 w).length := by
            unfold utf8
            repeat' split
            all_goals simp
          rw [h2] at hu hn
          obtain ⟨i1, i2⟩ := ih (Utf8.encode ws) (by simp at hn; omega) d' b' r' e1 ⟨hrest, hu.tail⟩
          exact ⟨wide_cons hw i1, i2⟩

theorem raw_state (cfg : Cfg) (d : Utf8.Dec) (w : Nat) (hw : w < 0x110000) (h2 : w ≠ 0x22) (h3 : w ≠ 0x5C) :
    ∃ d', (d'.b = 0 ∨ d' = d) ∧ ∀ cs : Bytes, readStr cfg d (utf8 w ++ cs) = Parser.pre (utf8 w) (readStr cfg d' cs) := by
  have hs := storeUnicode_eq w hw
  unfold utf8 at hs ⊢
  by_cases c1 : w < 0x80
  · rw [if_pos c1] at hs ⊢
    refine ⟨d, Or.inr rfl, fun cs => ?_⟩
    rw [List.singleton_append, readStr_plain cfg d w cs (by omega) h2 h3, Utf8.Dec.step_ascii d w c1]
    simp [hs]
  rw [if_neg c1] at hs ⊢
  by_cases c2 : w < 0x800
  · rw [if_pos c2] at hs ⊢
    refine ⟨⟨w, 0⟩, Or.inl rfl, fun cs => ?_⟩
    simp only [List.cons_append, List.nil_append]
    rw [readStr_plain cfg d _ _ (by omega) (by omega) (by omega), Utf8.Dec.step_lead2 d _ (by omega)]
    dsimp only
    rw [readStr_plain cfg _ _ _ (by omega) (by omega) (by omega), Utf8.Dec.step_last _ _ (by omega) (by omega)]
    have : w / 64 * 64 + w % 64 = w := by omega
    simp [this, hs, pre_nil]
  rw [if_neg c2] at hs ⊢
  by_cases c3 : w < 0x10000
  · rw [if_pos c3] at hs ⊢
    refine ⟨⟨w, 0⟩, Or.inl rfl, fun cs => ?_⟩
    simp only [List.cons_append, List.nil_append]
    rw [readStr_plain cfg d _ _ (by omega) (by omega) (by omega), Utf8.Dec.step_lead3 d _ (by omega)]
    dsimp only
    rw [readStr_plain cfg _ _ _ (by omega) (by omega) (by omega), Utf8.Dec.step_more _ 0 _ (by omega) (by omega) (by omega)]
    dsimp only
    rw [readStr_plain cfg _ _ _ (by omega) (by omega) (by omega), Utf8.Dec.step_last _ _ (by omega) (by omega)]
    have : (w / 4096 * 64 + w / 64 % 64) * 64 + w % 64 = w := by omega
    simp [this, hs, pre_nil]
  rw [if_neg c3] at hs ⊢
  refine ⟨⟨w, 0⟩, Or.inl rfl, fun cs => ?_⟩
  simp only [List.cons_append, List.nil_append]
  rw [readStr_plain cfg d _ _ (by omega) (by omega) (by omega), Utf8.Dec.step_lead4 d _ (by omega)]
  dsimp only
  rw [readStr_plain cfg _ _ _ (by omega) (by omega) (by omega), Utf8.Dec.step_more _ 1 _ (by omega) (by omega) (by omega)]
  dsimp only
  rw [readStr_plain cfg _ _ _ (by omega) (by omega) (by omega), Utf8.Dec.step_more _ 0 _ (by omega) (by omega) (by omega)]
  dsimp only
  rw [readStr_plain cfg _ _ _ (by omega) (by omega) (by omega), Utf8.Dec.step_last _ _ (by omega) (by omega)]
  have : ((w / 262144 * 64 + w / 4096 % 64) * 64 + w / 64 % 64) * 64 + w % 64 = w := by omega
  simp [this, hs, pre_nil]

/-- Code points after what is left of a character that an escape has swallowed a part of. -/
def CutStr (u8 : Bool) (s : Bytes) : Prop := ∃ cs t : Bytes, (∀ c ∈ cs, 0x80 ≤ c ∧ c < 0xC0) ∧ WideStr u8 t ∧ s = cs ++ t

theorem cut_tail {u8 : Bool} {c : Nat} {s : Bytes} (h : CutStr u8 (c :: s)) : CutStr u8 s := by
  obtain ⟨cs, t, h1, h2, h3⟩ := h
  cases cs with
  | cons a cs => cases h3; exact ⟨cs, t, fun x hx => h1 x (by simp [hx]), h2, rfl⟩
  | nil =>
    obtain ⟨ws, g1, rfl⟩ := h2
    cases ws with
    | nil => cases h3
    | cons w ws =>
      have hw := g1 w (by simp)
      have hr : WideStr u8 (Utf8.encode ws) := ⟨ws, fun x hx => g1 x (by simp [hx]), rfl⟩
      rw [List.nil_append, Utf8.encode_cons, ← utf8_eq w hw.1, utf8] at h3
      split at h3
      · cases h3; exact ⟨[], _, by simp, hr, rfl⟩
      · split at h3
        · cases h3
          exact ⟨[0x80 + w % 64], _, by simp; omega, hr, rfl⟩
        · split at h3
          · cases h3
            exact ⟨[0x80 + w / 64 % 64, 0x80 + w % 64], _, by simp; omega, hr, rfl⟩
          · cases h3
            exact ⟨[0x80 + w / 4096 % 64, 0x80 + w / 64 % 64, 0x80 + w % 64], _, by simp; omega, hr, rfl⟩

theorem cont_step (d : Utf8.Dec) {c n : Nat} (hc : 0x80 ≤ c ∧ c < 0xC0) (hn : n < 2 ^ 32) (hb : d.b = 0 ∨ (n < d.b ∧ d.b < 2 ^ 32)) (h0 : 0 < n) :
    (d.step c).2 = none ∧ (n - 1 < (d.step c).1.b ∧ (d.step c).1.b < 2 ^ 32) := by
  have e : c &&& 0xC0 = 0x80 := (Utf8.maskC0 c (by omega)).2 (by omega)
  unfold Utf8.Dec.step
  rw [if_pos e]
  dsimp only
  have : (d.b + (2 ^ 32 - 1)) % 2 ^ 32 ≠ 0 ∧ n - 1 < (d.b + (2 ^ 32 - 1)) % 2 ^ 32 := by omega
  rw [if_neg this.1]
  exact ⟨rfl, this.2, Nat.mod_lt _ (by decide)⟩

/-- The same for any escapes, for texts below 2^32 bytes: the decoder counts down from 2^32 and emits nothing for the rest of a character
whose beginning was swallowed. -/
theorem readStr_wideB (cfg : Cfg) (u8 : Bool) : ∀ (n : Nat) (s : Bytes), s.length ≤ n → s.length < 2 ^ 32 → ∀ (d : Utf8.Dec) (b r : Bytes),
    (d.b = 0 ∨ (s.length < d.b ∧ d.b < 2 ^ 32)) → readStr cfg d s = .ok (b, r) → CutStr u8 s →
    WideStr u8 b ∧ WideStr u8 r ∧ r.length ≤ s.length := by
  intro n
  induction n with
  | zero =>
    intro s hn _ d b r _ h
    cases s with
    | nil => rw [readStr.eq_def] at h; cases h
    | cons => simp at hn
  | succ n ih =>
    intro s hn hl d b r hb h hg
    obtain ⟨cs, t, h1, h2, h3⟩ := id hg
    cases cs with
    | cons c cs =>
      have hc := h1 c (by simp)
      rw [List.cons_append] at h3
      obtain ⟨x1, x2⟩ := cont_step d hc hl hb (by rw [h3]; simp)
      rw [h3] at h hn hl hg x2 ⊢
      rw [readStr_plain cfg d c _ (by omega) (by omega) (by omega), x1] at h
      change Parser.pre [] _ = _ at h
      rw [pre_nil] at h
      obtain ⟨i1, i2, i3⟩ := ih (cs ++ t) (by simp at hn ⊢; omega) (by simp at hl ⊢; omega) _ b r
        (Or.inr (by simp at x2 ⊢; omega)) h (cut_tail hg)
      exact ⟨i1, i2, by simp at i3 ⊢; omega⟩
    | nil =>
      rw [List.nil_append] at h3
      subst h3
      obtain ⟨ws, g1, g2⟩ := id h2
      cases ws with
      | nil => rw [g2, Utf8.encode, List.flatMap_nil, readStr.eq_def] at h; cases h
      | cons w ws =>
        have hw := g1 w (by simp)
        have hrest : WideStr u8 (Utf8.encode ws) := ⟨ws, fun x hx => g1 x (by simp [hx]), rfl⟩
        rw [Utf8.encode_cons] at g2
        by_cases hq : w = 0x22
        · subst hq
          rw [Utf8.wide1 (by decide), List.singleton_append] at g2
          rw [g2, readStr.eq_def] at h
          dsimp only at h
          rw [if_neg (fun h => absurd h.1 (by decide)), if_pos rfl] at h
          cases h
          exact ⟨wide_nil u8, hrest, by rw [g2]; simp⟩
        · by_cases hbs : w = 0x5C
          · subst hbs
            rw [Utf8.wide1 (by decide), List.singleton_append] at g2
            rw [g2, readStr.eq_def] at h
            dsimp only at h
            rw [if_neg (fun h => absurd h.1 (by decide)), if_neg (by decide), if_pos rfl] at h
            rw [g2] at hg hn hl hb ⊢
            have hg1 := cut_tail hg
            split at h
            · cases h
            · next e es he =>
              rw [he] at hg1 hn hl hb ⊢
              have hg2 := cut_tail hg1
              split at h
              · split at h
                · next a1 a2 a3 a4 r0 =>
                  have hg3 := cut_tail (cut_tail (cut_tail (cut_tail hg2)))
                  obtain ⟨⟨b', r'⟩, e1, e2⟩ := bind_ok_inv h
                  cases e2
                  simp only [List.length_cons] at hn hl hb ⊢
                  obtain ⟨i1, i2, i3⟩ := ih r0 (by omega) (by omega) d b' r' (by omega) e1 hg3
                  refine ⟨?_, i2, by omega⟩
                  have x1 := hexDigit_lt a1
                  have x2 := hexDigit_lt a2
                  have x3 := hexDigit_lt a3
                  have x4 := hexDigit_lt a4
                  rw [storeUnicode_eq _ (by omega)]
                  exact wide_cons ⟨by omega, Or.inr (by omega)⟩ i1
                · cases h
              · split at h
                · next b0 hb0 =>
                  obtain ⟨l1, l2⟩ := simpleEsc_lt hb0
                  obtain ⟨⟨b', r'⟩, e1, e2⟩ := bind_ok_inv h
                  cases e2
                  simp only [List.length_cons] at hn hl hb ⊢
                  obtain ⟨i1, i2, i3⟩ := ih es (by omega) (by omega) d b' r' (by omega) e1 hg2
                  refine ⟨?_, i2, by omega⟩
                  have := wide_cons (u8 := u8) (w := b0) ⟨by omega, Or.inr (by omega)⟩ i1
                  rw [utf8, if_pos l2] at this
                  exact this
                · cases h
          · obtain ⟨d', hd0, hd⟩ := raw_state cfg d w hw.1 hq hbs
            rw [← utf8_eq w hw.1] at g2
            rw [g2, hd] at h
            obtain ⟨⟨b', r'⟩, e1, e2⟩ := bind_ok_inv h
            cases e2
            have hl0 : 0 < (utf8 w).length := by
              unfold utf8
              repeat' split
              all_goals simp
            rw [g2, List.length_append] at hn hl hb ⊢
            obtain ⟨i1, i2, i3⟩ := ih (Utf8.encode ws) (by omega) (by omega) d' b' r'
              (by rcases hd0 with e | e
                  · exact Or.inl e
                  · rw [e]; omega) e1 ⟨[], _, by simp, hrest, rfl⟩
            exact ⟨wide_cons hw i1, i2, by dsimp only; omega⟩

/-- What is left of the text: code points, and all escapes are followed by ASCII or the text is below 2^32 bytes. -/
def GoodSrc (u8 : Bool) (s : Bytes) : Prop := WideStr u8 s ∧ (UniAscii s ∨ s.length < 2 ^ 32)

theorem GoodSrc.drop {u8 : Bool} {a r : Bytes} (h : GoodSrc u8 (a ++ r)) (ha : ∀ c ∈ a, c < 128) : GoodSrc u8 r := by
  refine ⟨wide_drop ha h.1, ?_⟩
  rcases h.2 with h | h
  · exact Or.inl h.tail
  · exact Or.inr (by rw [List.length_append] at h; omega)

theorem GoodSrc.one {u8 : Bool} {c : Nat} {r : Bytes} (h : GoodSrc u8 (c :: r)) (hc : c < 128) : GoodSrc u8 r :=
  GoodSrc.drop (a := [c]) h (by simpa using hc)

theorem readStr_wide (cfg : Cfg) (u8 : Bool) {s b r : Bytes} (h : readStr cfg Utf8.Dec.init s = .ok (b, r)) (hg : GoodSrc u8 s) :
    WideStr u8 b ∧ GoodSrc u8 r := by
  obtain ⟨h1, h2 | h2⟩ := hg
  · obtain ⟨a, b⟩ := readStr_wideA cfg u8 _ _ (Nat.le_refl _) _ _ _ h ⟨h1, h2⟩
    exact ⟨a, b.1, Or.inl b.2⟩
  · obtain ⟨a, b, c⟩ := readStr_wideB cfg u8 _ _ (Nat.le_refl _) h2 _ _ _ (Or.inl rfl) h ⟨[], _, by simp, h1, rfl⟩
    exact ⟨a, b, Or.inr (by omega)⟩

theorem skip_good {u8 : Bool} {s : Bytes} (h : GoodSrc u8 s) : GoodSrc u8 (skipWs s) := by
  obtain ⟨w, hw, e⟩ := skipWs_split s
  rw [e] at h
  exact h.drop (fun c hc => by have := hw c hc; omega)

theorem number_good {cfg : Cfg} {u8 : Bool} {c : Nat} {s : Bytes} {v : JV} {r : Bytes} (h : parseNumber cfg (c :: s) = .ok (v, r)) (hc : c ≠ 0x22)
    (hg : GoodSrc u8 (c :: s)) : (∃ n, v = .num n) ∧ GoodSrc u8 r := by
  have hm := parseNumber_made h
  obtain ⟨t, e, hv⟩ := parseNumber_sound cfg h
  rw [e] at hg
  have asc : ∀ {t : LTok}, t.WF cfg.dialect → ∀ c ∈ t.text, c < 128 := by
    intro t ht c hc
    unfold LTok.text at hc
    rcases List.mem_append.1 hc with hc | hc
    · rcases ht.sign with e | e | e <;> rw [e] at hc <;> simp at hc <;> omega
    · rcases List.mem_append.1 hc with hc | hc
      · have := ht.int c hc; unfold IsDig at this; omega
      · rcases List.mem_append.1 hc with hc | hc
        · cases hf : t.frac with
          | none => rw [hf] at hc; cases hc
          | some x =>
            rw [hf, fracText] at hc
            rcases List.mem_cons.1 hc with rfl | hc
            · decide
            · have := ht.frac x hf c hc; unfold IsDig at this; omega
        · cases hf : t.exp with
          | none => rw [hf] at hc; cases hc
          | some x =>
            rw [hf, expText] at hc
            obtain ⟨y1, y2, y3⟩ := ht.exp x hf
            rcases List.mem_cons.1 hc with rfl | hc
            · omega
            · rcases List.mem_append.1 hc with hc | hc
              · rcases y2 with e | e | e <;> rw [e] at hc <;> simp at hc <;> omega
              · have := y3.2 c hc; unfold IsDig at this; omega
  unfold parseNumber at h
  cases hv with
  | num hw hd hx => exact ⟨⟨_, rfl⟩, hg.drop (asc hw)⟩
  | str hb hx => cases e; exact absurd rfl hc
  | _ =>
    exfalso
    split at h
    · obtain ⟨p, -, h2⟩ := bind_ok_inv h
      cases h2
    · dsimp only at h
      split at h
      · cases h
      · split at h
        · split at h
          · obtain ⟨d, hd⟩ := parseDouble_made h; cases hd
          · split at h
            · split at h
              · cases h
              · unfold valueOfInt at h
                split at h <;> cases h
            · cases h
        · cases h

theorem allStr_value {Q : Bytes → Prop} {b : Bytes} (h : Q b) : AllStr Q (stringValue b) := by
  unfold stringValue
  split
  · simp [AllStr]
  · split
    · simp [AllStr]
    · rw [AllStr]; exact h

theorem allStrM_iff (Q : Bytes → Prop) : ∀ l : List (Bytes × JV), AllStrM Q l ↔ ∀ m ∈ l, Q m.1 ∧ AllStr Q m.2
  | [] => by simp [AllStrM]
  | (k, v) :: l => by rw [AllStrM, allStrM_iff Q l]; simp [and_assoc]

theorem parse_wide (cfg : Cfg) (u8 : Bool) : ∀ f : Nat,
    (∀ s v r, parseV cfg f s = .ok (v, r) → GoodSrc u8 s → AllStr (WideStr u8) v ∧ GoodSrc u8 r) ∧
    (∀ s m r, parseMembers cfg f s = .ok (m, r) → GoodSrc u8 s → AllStrM (WideStr u8) m ∧ GoodSrc u8 r) ∧
    (∀ s m r, parseItems cfg f s = .ok (m, r) → GoodSrc u8 s → AllStrL (WideStr u8) m ∧ GoodSrc u8 r) := by
  intro f
  induction f with
  | zero =>
    refine ⟨?_, ?_, ?_⟩
    · intro s v r h; rw [parseV.eq_def] at h; cases h
    · intro s v r h; rw [parseMembers.eq_def] at h; cases h
    · intro s v r h; rw [parseItems.eq_def] at h; cases h
  | succ f ih =>
    obtain ⟨ihV, ihM, ihI⟩ := ih
    have kw : ∀ {k s r : Bytes}, (∀ c ∈ k, c < 128) → checkKw k s = .ok r → GoodSrc u8 s → GoodSrc u8 r := by
      intro k s r hk h hg
      rw [checkKw_inv _ _ _ h] at hg
      exact hg.drop hk
    refine ⟨?_, ?_, ?_⟩
    · intro s v r h hg
      have hs := skip_good hg
      rw [parseV.eq_def] at h
      dsimp only at h
      split at h
      · cases h
      · next c r0 he =>
        rw [he] at hs
        split at h
        · next hc =>
          have hs2 := skip_good (hs.one (by omega))
          split at h
          · cases h
          · next c' r' he' =>
            rw [he'] at hs2
            split at h
            · cases h; exact ⟨by simp [AllStr, AllStrM], hs2.one (by omega)⟩
            · obtain ⟨⟨m, r1⟩, h1, h2⟩ := bind_ok_inv h
              obtain ⟨o, rfl, rfl, o3, o4, o5⟩ := finishObj_inv cfg h2
              obtain ⟨i1, i2⟩ := ihM _ _ _ h1 hs2
              rw [AllStr]
              refine ⟨(allStrM_iff _ _).2 fun x hx => ?_, i2⟩
              have hl := (o5 x.1).symm.trans (Obj.lookup_of_mem o4 hx)
              exact (allStrM_iff _ _).1 i1 _ (Obj.lastVal_mem hl)
        · split at h
          · next hc =>
            have hs2 := skip_good (hs.one (by omega))
            split at h
            · cases h
            · next c' r' he' =>
              rw [he'] at hs2
              split at h
              · cases h; exact ⟨by simp [AllStr, AllStrL], hs2.one (by omega)⟩
              · obtain ⟨⟨m, r1⟩, h1, h2⟩ := bind_ok_inv h
                cases h2
                rw [AllStr]
                exact ihI _ _ _ h1 hs2
          · split at h
            · obtain ⟨⟨b, r1⟩, h1, h2⟩ := bind_ok_inv h
              cases h2
              obtain ⟨i1, i2⟩ := readStr_wide cfg u8 h1 (hs.one (by omega))
              exact ⟨allStr_value i1, i2⟩
            · next hq =>
              split at h
              · obtain ⟨t, h1, h2⟩ := bind_ok_inv h
                cases h2; exact ⟨by simp [AllStr], kw (by decide) h1 hs⟩
              · split at h
                · obtain ⟨t, h1, h2⟩ := bind_ok_inv h
                  cases h2; exact ⟨by simp [AllStr], kw (by decide) h1 hs⟩
                · split at h
                  · obtain ⟨t, h1, h2⟩ := bind_ok_inv h
                    cases h2; exact ⟨by simp [AllStr], kw (by decide) h1 hs⟩
                  · split at h
                    · obtain ⟨⟨n, rfl⟩, i2⟩ := number_good h hq hs
                      exact ⟨by simp [AllStr], i2⟩
                    · cases h
    · intro s m r h hg
      rw [parseMembers.eq_def] at h
      try dsimp only at h
      split at h
      · cases h
      · cases h
      · next f' q r0 hf =>
        cases hf
        split at h
        · next hq =>
          obtain ⟨⟨k, r1⟩, h1, h⟩ := bind_ok_inv h
          obtain ⟨k1, k2⟩ := readStr_wide cfg u8 h1 (hg.one (by omega))
          have k3 := skip_good k2
          dsimp only at h
          split at h
          · cases h
          · next c r2 he =>
            rw [he] at k3
            split at h
            · obtain ⟨⟨v, r3⟩, h3, h⟩ := bind_ok_inv h
              obtain ⟨v1, v2⟩ := ihV _ _ _ h3 (k3.one (by omega))
              have v3 := skip_good v2
              dsimp only at h
              split at h
              · cases h
              · next c2 r4 he2 =>
                rw [he2] at v3
                split at h
                · cases h; exact ⟨⟨k1, v1, trivial⟩, v3.one (by omega)⟩
                · split at h
                  · obtain ⟨⟨m', r5⟩, h5, h⟩ := bind_ok_inv h
                    cases h
                    obtain ⟨m1, m2⟩ := ihM _ _ _ h5 (skip_good (v3.one (by omega)))
                    exact ⟨⟨k1, v1, m1⟩, m2⟩
                  · cases h
            · cases h
        · cases h
    · intro s m r h hg
      rw [parseItems.eq_def] at h
      dsimp only at h
      obtain ⟨⟨v, r3⟩, h3, h⟩ := bind_ok_inv h
      obtain ⟨v1, v2⟩ := ihV _ _ _ h3 hg
      have v3 := skip_good v2
      dsimp only at h
      split at h
      · cases h
      · next c2 r4 he2 =>
        rw [he2] at v3
        split at h
        · cases h; exact ⟨⟨v1, trivial⟩, v3.one (by omega)⟩
        · split at h
          · obtain ⟨⟨m', r5⟩, h5, h⟩ := bind_ok_inv h
            cases h
            obtain ⟨m1, m2⟩ := ihI _ _ _ h5 (v3.one (by omega))
            exact ⟨⟨v1, m1⟩, m2⟩
          · cases h

/-- One code point written and read. -/
theorem chr_read (cfg : Cfg) (u8 : Bool) (w : Nat) (hw : w < 0x110000 ∧ (u8 = true ∨ w < 0x10000)) (d : Utf8.Dec) :
    ∃ d', ∀ cs, readStr cfg d (chr u8 w ++ cs) = Parser.pre (utf8 w) (readStr cfg d' cs) := by
  unfold chr
  by_cases h1 : w < 128
  · rw [if_pos h1]
    have h8 : utf8 w = [w] := by rw [utf8, if_pos h1]
    rcases shortEsc_cases w with ⟨e, he, hE⟩ | ⟨he, hq, hbk⟩
    · rw [he, h8]
      exact ⟨d, fun cs => readStr_esc cfg d e w hE cs⟩
    · rw [he]
      dsimp only
      by_cases h2 : w < 32
      · rw [if_pos h2]
        exact ⟨d, fun cs => (readStr_uni cfg d _ _ (escU_esc4 w (by omega)) cs).1⟩
      · rw [if_neg h2, ← h8]
        exact readStr_raw cfg d w hw.1 hq hbk
  · rw [if_neg h1]
    unfold writeUnicode
    by_cases h2 : u8 = true ∧ w ≥ 0x80 ∧ w ≠ 0x2028 ∧ w ≠ 0x2029
    · rw [if_pos h2, if_neg (by omega), ← utf8_eq w hw.1]
      exact readStr_raw cfg d w hw.1 (by omega) (by omega)
    · rw [if_neg h2]
      have : w < 65536 := by
        rcases hw.2 with hb | hb
        · rcases Nat.lt_or_ge w 65536 with h | h
          · exact h
          · exact absurd ⟨hb, by omega, by omega, by omega⟩ h2
        · exact hb
      exact ⟨d, fun cs => (readStr_uni cfg d _ _ (escU_esc4 w this) cs).1⟩

theorem wide_read (cfg : Cfg) (u8 : Bool) {s : Bytes} (h : WideStr u8 s) (d d2 : Utf8.Dec) (rest : Bytes) :
    readStr cfg d2 (body u8 d s ++ 0x22 :: rest) = .ok (s, rest) := by
  obtain ⟨ws, h1, rfl⟩ := h
  induction ws generalizing d d2 with
  | nil => exact readStr_body cfg (t := []) .nil d2 rest
  | cons w ws ih =>
    have hw := h1 w (by simp)
    obtain ⟨d', hd⟩ := body_wide u8 w hw.1 d
    obtain ⟨d2', hd2⟩ := chr_read cfg u8 w hw d2
    rw [Utf8.encode_cons, hd, List.append_assoc, hd2, ih _ _ (fun x hx => h1 x (by simp [hx])), pre_ok, utf8_eq w hw.1]

theorem wide_leaf (cfg : Cfg) (u8 : Bool) (f : Decimal → Bytes) (s : Bytes) (h : WideStr u8 s) (hi : s ≠ infSign ∧ s ≠ 0x2D :: infSign) :
    LeavesBack cfg u8 f (.str s) := by
  rw [LeavesBack]
  intro rest _
  have e : ser u8 f (.str s) ++ rest = 0x22 :: (body u8 Utf8.Dec.init s ++ 0x22 :: rest) := by simp [ser, writeString]
  unfold infSign at hi
  unfold parse
  rw [e, parseV_head _ _ _ _ (by decide), if_neg (by decide), if_neg (by decide), if_pos rfl, wide_read cfg u8 h]
  change Res.ok (stringValue s, rest) = _
  rw [stringValue, if_neg hi.1, if_neg hi.2]

theorem num_leaf (cfg : Cfg) (htl : cfg.precise = false → ∀ n < 2 ^ 64, cfg.tooLong n = false) (u8 : Bool) (f : Decimal → Bytes) (n : JNum)
    (h : FromText cfg.precise (.num n)) (hd : NoDouble (.num n)) : LeavesBack cfg u8 f (.num n) := by
  cases hp : cfg.precise with
  | true => rw [hp] at h; exact from_leaves cfg hp u8 f _ h (by simp [AllStr])
  | false =>
    rw [hp] at h
    obtain ⟨a, b, c⟩ := made_trip cfg u8 f _ h hd (by simp [AllStr])
    rw [LeavesBack]
    intro rest hr
    obtain ⟨v', h1, h2⟩ := Trip.trip u8 f cfg (htl hp) _ a b [] rest ws_nil hr
    rw [List.nil_append] at h1
    rw [h1, Trip.reads_eq cfg hp h2 c]

mutual
theorem wide_leaves (cfg : Cfg) (htl : cfg.precise = false → ∀ n < 2 ^ 64, cfg.tooLong n = false) (u8 : Bool) (f : Decimal → Bytes) : (v : JV) →
    FromText cfg.precise v → NoDouble v → AllStr (WideStr u8) v → LeavesBack cfg u8 f v
  | .undef, h, _, _ => by rw [FromText] at h; exact h.elim
  | .null, _, _, _ => by simp [LeavesBack]
  | .bool _, _, _, _ => by simp [LeavesBack]
  | .num n, h, hd, _ => num_leaf cfg htl u8 f n h hd
  | .str s, h, _, hs => by
    rw [FromText] at h
    rw [AllStr] at hs
    exact wide_leaf cfg u8 f s hs h
  | .arr l, h, hd, hs => by
    rw [FromText] at h
    rw [NoDouble] at hd
    rw [AllStr] at hs
    rw [LeavesBack]
    exact wide_leavesL cfg htl u8 f l h hd hs
  | .obj l, h, hd, hs => by
    rw [FromText] at h
    rw [NoDouble] at hd
    rw [AllStr] at hs
    rw [LeavesBack]
    exact ⟨h.1, wide_leavesM cfg htl u8 f l h.2 hd hs⟩
theorem wide_leavesL (cfg : Cfg) (htl : cfg.precise = false → ∀ n < 2 ^ 64, cfg.tooLong n = false) (u8 : Bool) (f : Decimal → Bytes) : (l : List JV) →
    FromTextL cfg.precise l → NoDoubleL l → AllStrL (WideStr u8) l → LeavesBackL cfg u8 f l
  | [], _, _, _ => trivial
  | v :: l, h, hd, hs => by
    rw [FromTextL] at h
    rw [NoDoubleL] at hd
    rw [AllStrL] at hs
    exact ⟨wide_leaves cfg htl u8 f v h.1 hd.1 hs.1, wide_leavesL cfg htl u8 f l h.2 hd.2 hs.2⟩
theorem wide_leavesM (cfg : Cfg) (htl : cfg.precise = false → ∀ n < 2 ^ 64, cfg.tooLong n = false) (u8 : Bool) (f : Decimal → Bytes) :
    (l : List (Bytes × JV)) → FromTextM cfg.precise l → NoDoubleM l → AllStrM (WideStr u8) l → LeavesBackM cfg u8 f l
  | [], _, _, _ => trivial
  | (k, v) :: l, h, hd, hs => by
    rw [FromTextM] at h
    rw [NoDoubleM] at hd
    rw [AllStrM] at hs
    exact ⟨fun rest => wide_read cfg u8 hs.1 _ _ rest, wide_leaves cfg htl u8 f v h.1 hd.1 hs.2.1,
      wide_leavesM cfg htl u8 f l h.2 hd.2 hs.2.2⟩
end

/-- **C177.** Whatever well-formed UTF-8 text (JSON or not, for escaped output without characters above U+FFFF; below 2^32 bytes, or
with ASCII in the four bytes after each `\u`) a value without floating point numbers was read from, it is written and read again as the very same value. Nothing is asked of
the strings: escapes may have put halves of surrogate pairs into them, which are no UTF-8. Floating point numbers are the subject of C107 and C111. -/
theorem C177_source (cfg : Cfg) (htl : cfg.precise = false → ∀ n < 2 ^ 64, cfg.tooLong n = false) (u8 : Bool) (s : Bytes) (hs : StrOk u8 s) (hu : UniAscii s ∨ s.length < 2 ^ 32)
    (v : JV) (r : Bytes) (h : parse cfg s = .ok (v, r)) (hd : NoDouble v) (f : Decimal → Bytes) :
    ∃ t, stringify u8 f v = .ok t ∧ parse cfg t = .ok (v, []) := by
  have hm := (parse_made cfg _).1 _ _ _ h
  have hw := ((parse_wide cfg u8 _).1 _ _ _ h ⟨strOk_wide hs, hu⟩).1
  refine ⟨ser u8 f v, by rw [stringify, made_noMin _ v hm]; rfl, ?_⟩
  have hb := C176_leaves cfg u8 f v (wide_leaves cfg htl u8 f v hm hd hw) [] ws_nil [] (by intro _ _ h; cases h)
  simpa using hb

mutual
theorem text_noDouble : (v : JV) → FromText true v → NoDouble v
  | .undef, h => by rw [FromText] at h; exact h.elim
  | .null, _ => by simp [NoDouble]
  | .bool _, _ => by simp [NoDouble]
  | .num (.uint _), _ => by simp [NoDouble]
  | .num (.int _), _ => by simp [NoDouble]
  | .num (.dbl _), h => by rw [FromText] at h; cases h
  | .num (.prec _ _), _ => by simp [NoDouble]
  | .num (.inf _), _ => by simp [NoDouble]
  | .str _, _ => by simp [NoDouble]
  | .arr l, h => by rw [FromText] at h; rw [NoDouble]; exact text_noDoubleL l h
  | .obj l, h => by rw [FromText] at h; rw [NoDouble]; exact text_noDoubleM l h.2
theorem text_noDoubleL : (l : List JV) → FromTextL true l → NoDoubleL l
  | [], _ => trivial
  | v :: l, h => by rw [FromTextL] at h; exact ⟨text_noDouble v h.1, text_noDoubleL l h.2⟩
theorem text_noDoubleM : (l : List (Bytes × JV)) → FromTextM true l → NoDoubleM l
  | [], _ => trivial
  | (k, v) :: l, h => by rw [FromTextM] at h; exact ⟨text_noDouble v h.1, text_noDoubleM l h.2⟩
end

/-- **C177, numbers kept as text.** With numbers kept as text nothing is asked of the value at all: whatever was read from well-formed
UTF-8 text is written and read again as the very same value. -/
theorem C177_precise (cfg : Cfg) (hp : cfg.precise = true) (u8 : Bool) (s : Bytes)
    (hs : StrOk u8 s) (hu : UniAscii s ∨ s.length < 2 ^ 32) (v : JV) (r : Bytes) (h : parse cfg s = .ok (v, r)) (f : Decimal → Bytes) :
    ∃ t, stringify u8 f v = .ok t ∧ parse cfg t = .ok (v, []) := by
  have hm := (parse_made cfg _).1 _ _ _ h
  rw [hp] at hm
  exact C177_source cfg (fun h => by rw [hp] at h; cases h) u8 s hs hu v r h (text_noDouble v hm) f

theorem uniAscii_of {s : Bytes} (h : ∀ c ∈ s, c < 0x80) : UniAscii s := by
  intro a r e c hc
  exact h c (by rw [e]; simp [List.mem_of_mem_take hc])

theorem strOk_low (u8 : Bool) : ∀ {s : Bytes}, (∀ c ∈ s, c < 0x80) → StrOk u8 s
  | [], _ => ⟨.nil, Or.inr (by simp)⟩
  | c :: s, h => by
    obtain ⟨h1, -⟩ := strOk_low u8 (s := s) (fun x hx => h x (by simp [hx]))
    have hc := h c (by simp)
    exact ⟨.one (by unfold inR; omega) h1, Or.inr (fun b hb => by have := h b hb; omega)⟩

/-- A half of a surrogate pair, a key written with an escape and a number. -/
example : ∃ v, parse {} (ascii "{\"\\u0062\":\"\\ud83d\", \"a\":[-5]} x") = .ok (v, ascii " x") ∧
    v = .obj [(ascii "a", .arr [.num (.int (-5))]), (ascii "b", .str [0xED, 0xA0, 0xBD])] ∧ NoDouble v ∧
    StrOk false (ascii "{\"\\u0062\":\"\\ud83d\", \"a\":[-5]} x") ∧ UniAscii (ascii "{\"\\u0062\":\"\\ud83d\", \"a\":[-5]} x") :=
  ⟨_, by decide +kernel, rfl, by simp [NoDouble, NoDoubleL, NoDoubleM], strOk_low false (by decide), uniAscii_of (by decide)⟩

/-- An escape swallows a part of a character; the rest of it is dropped. -/
example : parse {} [0x22, 0x5C, 0x75, 0x30, 0x30, 0x34, 0xC3, 0xA9, 0x42, 0x22] = .ok (.str [0x40, 0x42], []) ∧
    StrOk true [0x22, 0x5C, 0x75, 0x30, 0x30, 0x34, 0xC3, 0xA9, 0x42, 0x22] :=
  ⟨by decide +kernel, .one (by decide) (.one (by decide) (.one (by decide) (.one (by decide) (.one (by decide) (.one (by decide)
    (.two (by decide) (by decide) (.one (by decide) (.one (by decide) .nil)))))))), Or.inl rfl⟩

end Imt.Props
