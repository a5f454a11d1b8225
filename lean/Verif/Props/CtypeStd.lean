import Verif.Model.CtypeStd
/-!
# C162 — character classes are asked for valid characters only

Outside of the parser (C72) the classes are asked by the rules of the validator and by the writer of the binary format.
-/
namespace Imt.Props
open Imt

/-- A byte from 0x80 to 0xFE stands in `s` and everything before it satisfies `q`: a loop that goes on while `q`
holds comes to it. -/
def HighReached (q : Nat → Bool) (s : Bytes) : Prop :=
  ∃ pre c post, s = pre ++ c :: post ∧ (∀ x ∈ pre, q x = true) ∧ 128 ≤ c ∧ c < 255

theorem std_byte (p : Nat → Bool) (hp : p 255 = false) (c : Nat) (h : c < 128 ∨ c = 255) :
    Ctype.std p (Ctype.charVal c) = .ok (p c) := by
  unfold Ctype.charVal Ctype.std
  rcases h with h | rfl
  · rw [if_neg (by omega), if_neg (by omega), if_neg (by omega), Int.toNat_natCast]
  · rw [hp]; rfl

theorem std_high (p : Nat → Bool) (c : Nat) (h : 128 ≤ c) (h2 : c < 255) : Ctype.std p (Ctype.charVal c) = .ub := by
  unfold Ctype.charVal Ctype.std
  rw [if_pos h, if_neg (by omega), if_pos (by omega)]

theorem loop_high (p extra : Nat → Bool) (hp : p 255 = false) (h128 : ∀ c, 128 ≤ c → extra c = false)
    (hp2 : ∀ c, 128 ≤ c → p c = false) (s : Bytes) (h : HighReached (fun c => p c || extra c) s) :
    Ctype.loop p extra s = .ub := by
  obtain ⟨pre, c, post, rfl, hq, h1, h2⟩ := h
  induction pre with
  | nil => rw [List.nil_append, Ctype.loop, std_high p c h1 h2]; rfl
  | cons a pre ih =>
    have ha := hq a (by simp)
    have hl : a < 128 := by
      rcases Nat.lt_or_ge a 128 with h | h
      · exact h
      · simp [hp2 a h, h128 a h] at ha
    rw [List.cons_append, Ctype.loop, std_byte p hp a (.inl hl), Res.bind_ok,
      if_neg (by cases hpa : p a <;> simp_all)]
    exact ih (fun x hx => hq x (List.mem_cons_of_mem _ hx))

theorem loop_low (p extra : Nat → Bool) (hp : p 255 = false) (s : Bytes) (hb : ∀ c ∈ s, c < 256)
    (h : ¬ HighReached (fun c => p c || extra c) s) :
    Ctype.loop p extra s = .ok (VText.allIn (fun c => p c || extra c) s) := by
  induction s with
  | nil => rfl
  | cons a s ih =>
    have hl : a < 128 ∨ a = 255 := by
      have := hb a (by simp)
      rcases Nat.lt_or_ge a 128 with h1 | h1
      · exact .inl h1
      · rcases Nat.lt_or_ge a 255 with h2 | h2
        · exact absurd ⟨[], a, s, rfl, by simp, h1, h2⟩ h
        · exact .inr (by omega)
    rw [Ctype.loop, std_byte p hp a hl, Res.bind_ok, VText.allIn]
    cases hq : (p a || extra a) with
    | false =>
      rw [if_pos (by cases hpa : p a <;> simp_all), if_pos (by simp)]; rfl
    | true =>
      rw [if_neg (by cases hpa : p a <;> simp_all), if_neg (by simp)]
      refine ih (fun c hc => hb c (List.mem_cons_of_mem _ hc)) ?_
      rintro ⟨pre, c, post, rfl, h1, h2⟩
      refine h ⟨a :: pre, c, post, rfl, ?_, h2⟩
      intro x hx
      rcases List.mem_cons.1 hx with rfl | hx
      · exact hq
      · exact h1 x hx

theorem class_high : ∀ c, 128 ≤ c → VText.isxdigit c = false ∧ VText.isalpha c = false ∧ VText.isalnum c = false ∧ VText.isdigit c = false := by
  intro c h
  simp only [VText.isxdigit, VText.isalpha, VText.isalnum, VText.isdigit, VText.isupper, VText.islower, Bool.or_eq_false_iff,
    Bool.and_eq_false_iff, decide_eq_false_iff_not]
  omega

theorem orNo (p : Nat → Bool) : (fun c => p c || Ctype.noExtra c) = p := by
  funext c; simp [Ctype.noExtra]

/-- C162, partial: the rules `hex`, `alpha`, `alnum` and `digits` are defined, and answer what the model of the rules
says, when the loop leaves before it comes to a byte from 0x80 to 0xFE. All ASCII text is of this kind. -/
theorem C162_rules_partial (s : Bytes) (hb : ∀ c ∈ s, c < 256) :
    (¬ HighReached VText.isxdigit s → Ctype.opHex s = .ok (VText.opHex s)) ∧
    (¬ HighReached VText.isalpha s → Ctype.opAlpha s = .ok (VText.opAlpha s)) ∧
    (¬ HighReached VText.isalnum s → Ctype.opAlnum s = .ok (VText.opAlnum s)) ∧
    (¬ HighReached VText.isdigit s → Ctype.opDigits s = .ok (VText.opDigits s)) := by
  refine ⟨?_, ?_, ?_, ?_⟩ <;> intro h
  · unfold Ctype.opHex VText.opHex
    by_cases e : s = []
    · rw [if_pos e, if_pos e]
    · rw [if_neg e, if_neg e, loop_low _ _ (by decide) s hb (by rw [orNo]; exact h), orNo]
  · unfold Ctype.opAlpha VText.opAlpha
    by_cases e : s = []
    · rw [if_pos e, if_pos e]
    · rw [if_neg e, if_neg e, loop_low _ _ (by decide) s hb (by rw [orNo]; exact h), orNo]
  · unfold Ctype.opAlnum VText.opAlnum
    by_cases e : s = []
    · rw [if_pos e, if_pos e]
    · rw [if_neg e, if_neg e, loop_low _ _ (by decide) s hb (by rw [orNo]; exact h), orNo]
  · unfold Ctype.opDigits VText.opDigits
    by_cases e : s = []
    · rw [if_pos e, if_pos e]
    · rw [if_neg e, if_neg e, loop_low _ _ (by decide) s hb (by rw [orNo]; exact h), orNo]

theorem not_high_ascii (q : Nat → Bool) (s : Bytes) (h : ∀ c ∈ s, c < 128) : ¬ HighReached q s := by
  rintro ⟨pre, c, post, rfl, -, h1, -⟩
  have := h c (by simp)
  omega

/-- The text `!é`: the class fails at the first character, the second is never asked for. -/
example : (∀ c ∈ [33, 0xC3, 0xA9], c < 256) ∧ ¬ HighReached VText.isalpha [33, 0xC3, 0xA9] := by
  refine ⟨by decide, ?_⟩
  rintro ⟨pre, c, post, h, hq, h1, -⟩
  cases pre with
  | nil =>
    injection h with h _
    omega
  | cons a pre =>
    injection h with h _
    subst h
    exact absurd (hq 33 (by simp)) (by decide)

/-- C162, partial: the same for `base64`, `base64url` and for the test of strings that can be compressed. -/
theorem C162_codes_partial (s : Bytes) (hb : ∀ c ∈ s, c < 256) :
    (¬ HighReached (fun c => VText.isalnum c || (c == 47 || c == 43)) s → Ctype.opBase64 s = .ok (VText.opBase64 s)) ∧
    (¬ HighReached (fun c => VText.isalnum c || (c == 45 || c == 95)) s → Ctype.opBase64url s = .ok (VText.opBase64url s)) ∧
    (¬ HighReached (fun c => VText.isalnum c || (c == 95 || c == 45)) s → Ctype.canCompress s = .ok (BinJson.canCompress s)) := by
  refine ⟨?_, ?_, ?_⟩ <;> intro h
  · unfold Ctype.opBase64 VText.opBase64
    by_cases e : s = []
    · rw [if_pos e, if_pos e]
    · rw [if_neg e, if_neg e]
      by_cases e2 : s.length % 4 ≠ 0
      · rw [if_pos e2, if_pos e2]
      · rw [if_neg e2, if_neg e2]
        generalize VText.dropEq s (VText.dropEq s s.length) = n
        rw [loop_low _ _ (by decide) _ (fun c hc => hb c (List.mem_of_mem_take hc))]
        · simp only [Bool.or_assoc]
        · rintro ⟨pre, c, post, e3, h1, h2⟩
          exact h ⟨pre, c, post ++ s.drop n, by rw [← List.cons_append, ← List.append_assoc, ← e3, List.take_append_drop], h1, h2⟩
  · unfold Ctype.opBase64url VText.opBase64url
    by_cases e : s = []
    · rw [if_pos e, if_pos e]
    · rw [if_neg e, if_neg e]
      by_cases e2 : s.length % 4 = 1
      · rw [if_pos e2, if_pos e2]
      · rw [if_neg e2, if_neg e2, loop_low _ _ (by decide) _ hb h]
        simp only [Bool.or_assoc]
  · unfold Ctype.canCompress BinJson.canCompress
    by_cases e : s.length ≤ 4
    · rw [if_pos e, decide_eq_false (by omega)]; rfl
    · rw [if_neg e, decide_eq_true (by omega), loop_low _ _ (by decide) _ hb h, Bool.true_and]
      congr 1
      clear h e hb
      induction s with
      | nil => rfl
      | cons c s ih =>
        have e : (VText.isalnum c || (c == 95 || c == 45)) = BinJson.isTok c := by
          simp only [VText.isalnum, VText.isalpha, VText.isdigit, VText.isupper, VText.islower, BinJson.isTok]
          cases decide (48 ≤ c) <;> cases decide (c ≤ 57) <;> cases decide (65 ≤ c) <;> cases decide (c ≤ 90) <;>
            cases decide (97 ≤ c) <;> cases decide (c ≤ 122) <;> simp
        rw [VText.allIn, e, List.all_cons, ih]
        cases BinJson.isTok c <;> rfl

example : (∀ c ∈ ascii "QUI=", c < 128) ∧ Ctype.opBase64 (ascii "QUI=") = .ok true ∧
    Ctype.opBase64url (ascii "QUI") = .ok true ∧ Ctype.canCompress (ascii "user_id") = .ok true := by decide +kernel

/-- C162 fails: one byte from 0x80 to 0xFE after characters of the class makes each of the tests undefined. -/
theorem C162_violation_rules (s : Bytes) :
    (HighReached VText.isxdigit s → Ctype.opHex s = .ub) ∧ (HighReached VText.isalpha s → Ctype.opAlpha s = .ub) ∧
    (HighReached VText.isalnum s → Ctype.opAlnum s = .ub) ∧ (HighReached VText.isdigit s → Ctype.opDigits s = .ub) := by
  have ne : ∀ q, HighReached q s → s ≠ [] := by
    rintro q ⟨pre, c, post, rfl, -⟩; simp
  have h0 : ∀ c, 128 ≤ c → Ctype.noExtra c = false := fun _ _ => rfl
  refine ⟨?_, ?_, ?_, ?_⟩ <;> intro h
  · unfold Ctype.opHex
    rw [if_neg (ne _ h)]
    exact loop_high _ _ (by decide) h0 (fun c hc => (class_high c hc).1) s (by rw [orNo]; exact h)
  · unfold Ctype.opAlpha
    rw [if_neg (ne _ h)]
    exact loop_high _ _ (by decide) h0 (fun c hc => (class_high c hc).2.1) s (by rw [orNo]; exact h)
  · unfold Ctype.opAlnum
    rw [if_neg (ne _ h)]
    exact loop_high _ _ (by decide) h0 (fun c hc => (class_high c hc).2.2.1) s (by rw [orNo]; exact h)
  · unfold Ctype.opDigits
    rw [if_neg (ne _ h)]
    exact loop_high _ _ (by decide) h0 (fun c hc => (class_high c hc).2.2.2) s (by rw [orNo]; exact h)

/-- The word `é` in UTF-8. -/
example : HighReached VText.isalpha [0xC3, 0xA9] ∧ Ctype.opAlpha [0xC3, 0xA9] = .ub :=
  ⟨⟨[], 0xC3, [0xA9], rfl, by simp, by decide, by decide⟩, by decide⟩

/-- C162 fails: a string of five or more bytes written to the binary format with compression of tokens is undefined when
a byte from 0x80 to 0xFE comes before any character that is not of a token. The text rules and identifiers likewise. -/
theorem C162_violation_compress (s : Bytes) (hl : 5 ≤ s.length)
    (h : HighReached (fun c => VText.isalnum c || (c == 95 || c == 45)) s) : Ctype.canCompress s = .ub := by
  unfold Ctype.canCompress
  rw [if_neg (by omega)]
  refine loop_high _ _ (by decide) ?_ (fun c hc => (class_high c hc).2.2.1) s h
  intro c hc
  simp only [Bool.or_eq_false_iff, beq_eq_false_iff_ne]
  omega

example : 5 ≤ (ascii "caf" ++ [0xC3, 0xA9]).length ∧
    HighReached (fun c => VText.isalnum c || (c == 95 || c == 45)) (ascii "caf" ++ [0xC3, 0xA9]) :=
  ⟨by decide, ascii "caf", 0xC3, [0xA9], by decide, by decide, by decide, by decide⟩

theorem identNo_low (first : Bool) (a : Nat) (h : a < 128) :
    Ctype.identNo first a = .ok (!VText.isalnum a || (first && !VText.isalpha a)) := by
  unfold Ctype.identNo
  rw [std_byte _ (by decide) a (.inl h), std_byte _ (by decide) a (.inl h)]
  simp only [Res.bind_ok]
  cases VText.isalnum a <;> cases first <;> rfl

/-- C162 fails: the same for identifiers. -/
theorem C162_violation_identifier (w : Bytes) (c : Nat) (t : Bytes) (hw : VText.opIsIdentifier w = true)
    (hb : ∀ x ∈ w, x < 128) (h1 : 128 ≤ c) (h2 : c < 255) : Ctype.opIsIdentifier (w ++ c :: t) = .ub := by
  unfold VText.opIsIdentifier at hw
  unfold Ctype.opIsIdentifier
  revert hw hb
  suffices ∀ first, (VText.identLoop first w = true) → (∀ x ∈ w, x < 128) → Ctype.identLoop first (w ++ c :: t) = .ub from
    this true
  intro first hw hb
  induction w generalizing first with
  | nil => rw [List.nil_append, Ctype.identLoop, Ctype.identNo, std_high _ c h1 h2]; rfl
  | cons a w ih =>
    rw [VText.identLoop] at hw
    rw [List.cons_append, Ctype.identLoop, identNo_low first a (hb a (by simp)), Res.bind_ok]
    split at hw
    · exact absurd hw (by simp)
    · rename_i hc
      rw [if_neg hc]
      exact ih false hw (fun x hx => hb x (List.mem_cons_of_mem _ hx))

example : VText.opIsIdentifier (ascii "na") = true ∧ (∀ x ∈ ascii "na", x < 128) ∧
    Ctype.opIsIdentifier (ascii "na" ++ [0xC3, 0xAF]) = .ub := by decide +kernel

/-- C162, partial: for ASCII text the test of identifiers is defined. -/
theorem C162_identifier_partial (s : Bytes) (hb : ∀ x ∈ s, x < 128) :
    Ctype.opIsIdentifier s = .ok (VText.opIsIdentifier s) := by
  unfold VText.opIsIdentifier Ctype.opIsIdentifier
  generalize true = first
  induction s generalizing first with
  | nil => rfl
  | cons a s ih =>
    rw [VText.identLoop, Ctype.identLoop, identNo_low first a (hb a (by simp)), Res.bind_ok, ih (fun x hx => hb x (List.mem_cons_of_mem _ hx))]
    split <;> rfl

example : ∀ x ∈ ascii "a_1", x < 128 := by decide

theorem dateStep_low (st : VText.DT) (c d : Nat) (h : d < 128) : Ctype.dateStep st c d = .ok (VText.dateStep st c d) := by
  unfold Ctype.dateStep
  split
  · rename_i hc
    rw [std_byte _ (by decide) d (.inl h), Res.bind_ok]
    split
    · rename_i hd
      unfold VText.dateStep
      rw [if_neg (by omega), if_pos hc, if_pos hd]; rfl
    · rfl
  · rfl

/-- C162, partial: for ASCII text the test of dates is defined, for every format. -/
theorem C162_date_partial (f t : Bytes) (hb : ∀ x ∈ t, x < 128) :
    Ctype.checkDateTimeGen f t = .ok (VText.checkDateTimeGen f t) := by
  have hl : ∀ (f t : Bytes) (st : VText.DT), (∀ x ∈ t, x < 128) → Ctype.dateLoop st f t = .ok (VText.dateLoop st f t) := by
    intro f
    induction f with
    | nil => intro t st _; rfl
    | cons c f ih =>
      intro t st hb
      cases t with
      | nil => rfl
      | cons d t =>
        rw [Ctype.dateLoop, dateStep_low st c d (hb d (by simp)), Res.bind_ok, VText.dateLoop]
        cases VText.dateStep st c d with
        | none => rfl
        | some st => exact ih t st (fun x hx => hb x (List.mem_cons_of_mem _ hx))
  unfold Ctype.checkDateTimeGen VText.checkDateTimeGen
  split
  · rfl
  · rw [hl f t {} hb, Res.bind_ok]
    cases VText.dateLoop {} f t <;> rfl

/-- C162 fails: a byte from 0x80 to 0xFE in place of the first digit of a date. -/
theorem C162_violation_date (d : Nat) (t : Bytes) (hl : t.length = 9) (h1 : 128 ≤ d) (h2 : d < 255) :
    Ctype.checkDateTimeGen VText.fmtDate (d :: t) = .ub := by
  have hf : VText.fmtDate = 89 :: (ascii "YYY-MM-DD") := by decide
  unfold Ctype.checkDateTimeGen
  rw [hf, if_neg (by rw [List.length_cons, List.length_cons, hl]; decide)]
  have : Ctype.dateStep {} 89 d = .ub := by
    unfold Ctype.dateStep
    rw [if_pos (by simp), std_high _ d h1 h2]; rfl
  rw [Ctype.dateLoop, this]
  rfl

example : (ascii "026-11-17").length = 9 ∧ (∀ x ∈ ascii "2026-11-17", x < 128) ∧
    Ctype.checkDateTimeGen VText.fmtDate (ascii "2026-11-17") = .ok true := by decide +kernel

end Imt.Props
