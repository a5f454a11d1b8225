import Verif.Model.ValidText
import Mathlib.Tactic.IntervalCases
import Mathlib.Data.List.Forall2
/-!
# Tests of strings in the validator: C53 (dates), C54 (character sets), C93 (string classes)
-/
namespace Imt.Props
open Imt Imt.VText

/-! ## Dates -/

/-- The Gregorian rule. -/
def Leap (y : Nat) : Prop := 4 ∣ y ∧ (100 ∣ y → 400 ∣ y)

instance (y : Nat) : Decidable (Leap y) := inferInstanceAs (Decidable (_ ∧ _))

/-- Number of days of a month. -/
def monthDays (y m : Nat) : Nat :=
  if m = 2 then (if Leap y then 29 else 28) else if m = 4 ∨ m = 6 ∨ m = 9 ∨ m = 11 then 30 else 31

/-- Decimal notation with `n` digits. -/
def decN : Nat → Nat → Bytes
  | 0, _ => []
  | n + 1, v => decN n (v / 10) ++ [48 + v % 10]

/-- A calendar day of the years 1000-9999. -/
def RealDay (y m d : Nat) : Prop := 1000 ≤ y ∧ y ≤ 9999 ∧ 1 ≤ m ∧ m ≤ 12 ∧ 1 ≤ d ∧ d ≤ monthDays y m

/-- A time of the day. -/
def RealTime (h m s : Nat) : Prop := h ≤ 23 ∧ m ≤ 59 ∧ s ≤ 59

/-- Letters of a format that stand for a digit. -/
def FieldLetter (c : Nat) : Prop := c ∈ ascii "DMYhmscOo"

instance (c : Nat) : Decidable (FieldLetter c) := inferInstanceAs (Decidable (_ ∈ _))

/-- A character of the text fits the character of the format. -/
def Fits (c d : Nat) : Prop :=
  (FieldLetter c → 48 ≤ d ∧ d ≤ 57) ∧ (c = 43 → d = 43 ∨ d = 45) ∧ (¬ FieldLetter c → c ≠ 43 → d = c)

/-- The number written in the text at the positions of a letter of the format. -/
def fieldVal (x : Nat) : Nat → Bytes → Bytes → Nat
  | v, c :: f, d :: t => fieldVal x (if c = x then v * 10 + (d - 48) else v) f t
  | v, _, _ => v

theorem fieldLetter_iff (c : Nat) : FieldLetter c ↔
    (c = 68 ∨ c = 77 ∨ c = 89 ∨ c = 104 ∨ c = 109 ∨ c = 115 ∨ c = 99 ∨ c = 79 ∨ c = 111) := by
  simp [FieldLetter, ascii]

/-- State of the loop described by the fields. -/
structure DInv (st : DT) (D M Y h m s O : Nat) (hasD hasM hasY : Prop) : Prop where
  D : st.D = D
  M : st.M = M
  Y : st.Y = Y
  h : st.h = h
  m : st.m = m
  s : st.s = s
  O : st.O = O
  o : st.o = 0
  hasD : st.hasD = true ↔ hasD
  hasM : st.hasM = true ↔ hasM
  hasY : st.hasY = true ↔ hasY

/-- The values stay below 2^32. -/
def Room (x v : Nat) (f : Bytes) : Prop := v < 10 ^ (9 - f.count x) ∧ f.count x ≤ 9

theorem room_step {x v : Nat} {c : Nat} {f : Bytes} {d : Nat} (h : Room x v (c :: f)) (hd : c = x → 48 ≤ d ∧ d ≤ 57) :
    Room x (if c = x then v * 10 + (d - 48) else v) f := by
  obtain ⟨h1, h2⟩ := h
  by_cases hc : c = x
  · subst hc
    rw [List.count_cons_self] at h1 h2
    obtain ⟨hd1, hd2⟩ := hd rfl
    refine ⟨?_, by omega⟩
    rw [if_pos rfl]
    have : 9 - f.count c = (9 - (f.count c + 1)) + 1 := by omega
    rw [this, Nat.pow_succ]
    omega
  · rw [List.count_cons_of_ne hc] at h1 h2
    rw [if_neg hc]
    exact ⟨h1, h2⟩

theorem room_acc {x v : Nat} {f : Bytes} {d : Nat} (h : Room x v (x :: f)) (hd : 48 ≤ d ∧ d ≤ 57) :
    acc v d = v * 10 + (d - 48) := by
  obtain ⟨h1, h2⟩ := h
  rw [List.count_cons_self] at h1 h2
  have h3 : 10 ^ (9 - (f.count x + 1)) ≤ 10 ^ 8 := Nat.pow_le_pow_right (by omega) (by omega)
  unfold acc
  rw [Nat.mod_eq_of_lt]
  omega

theorem dateStep_spec {c d : Nat} {f : Bytes} {st : DT} {D M Y h m s O : Nat} {hD hM hY : Prop} (hc : c ≠ 111)
    (hi : DInv st D M Y h m s O hD hM hY) (r1 : Room 68 D (c :: f)) (r2 : Room 77 M (c :: f)) (r3 : Room 89 Y (c :: f))
    (r4 : Room 104 h (c :: f)) (r5 : Room 109 m (c :: f)) (r6 : Room 115 s (c :: f)) (r7 : Room 79 O (c :: f)) :
    (Fits c d ∧ ∃ st1, dateStep st c d = some st1 ∧
      DInv st1 (if c = 68 then D * 10 + (d - 48) else D) (if c = 77 then M * 10 + (d - 48) else M)
        (if c = 89 then Y * 10 + (d - 48) else Y) (if c = 104 then h * 10 + (d - 48) else h)
        (if c = 109 then m * 10 + (d - 48) else m) (if c = 115 then s * 10 + (d - 48) else s)
        (if c = 79 then O * 10 + (d - 48) else O) (hD ∨ c = 68) (hM ∨ c = 77) (hY ∨ c = 89)) ∨
      (¬ Fits c d ∧ dateStep st c d = none) := by
  obtain ⟨i1, i2, i3, i4, i5, i6, i7, i8, i9, i10, i11⟩ := hi
  subst i1 i2 i3 i4 i5 i6 i7
  by_cases hf : FieldLetter c
  · have hf' := (fieldLetter_iff c).1 hf
    have h43 : c ≠ 43 := by omega
    by_cases hd : 48 ≤ d ∧ d ≤ 57
    · left
      refine ⟨⟨fun _ => hd, fun hh => absurd hh h43, fun hh => absurd hf hh⟩, ?_⟩
      have hdig : isdigit d = true := by simp [isdigit, hd]
      unfold dateStep
      rw [if_neg h43, if_pos hf', hdig]
      clear hf
      rcases hf' with rfl | rfl | rfl | rfl | rfl | rfl | rfl | rfl | rfl
      · have e := room_acc r1 hd
        exact ⟨_, rfl, by constructor <;> simp [e, i8, i10, i11]⟩
      · have e := room_acc r2 hd
        exact ⟨_, rfl, by constructor <;> simp [e, i8, i9, i11]⟩
      · have e := room_acc r3 hd
        exact ⟨_, rfl, by constructor <;> simp [e, i8, i9, i10]⟩
      · have e := room_acc r4 hd
        exact ⟨_, rfl, by constructor <;> simp [e, i8, i9, i10, i11]⟩
      · have e := room_acc r5 hd
        exact ⟨_, rfl, by constructor <;> simp [e, i8, i9, i10, i11]⟩
      · have e := room_acc r6 hd
        exact ⟨_, rfl, by constructor <;> simp [e, i8, i9, i10, i11]⟩
      · exact ⟨_, rfl, by constructor <;> simp [i8, i9, i10, i11]⟩
      · have e := room_acc r7 hd
        exact ⟨_, rfl, by constructor <;> simp [e, i8, i9, i10, i11]⟩
      · exact absurd rfl hc
    · right
      refine ⟨fun hh => hd (hh.1 hf), ?_⟩
      have hdig : isdigit d = false := by
        simp only [isdigit, Bool.and_eq_false_iff, decide_eq_false_iff_not]; omega
      unfold dateStep
      rw [if_neg h43, if_pos hf', hdig]
      rfl
  · have hf' := fun hh => hf ((fieldLetter_iff c).2 hh)
    have n1 : c ≠ 68 := fun hh => hf' (by omega)
    have n2 : c ≠ 77 := fun hh => hf' (by omega)
    have n3 : c ≠ 89 := fun hh => hf' (by omega)
    have n4 : c ≠ 104 := fun hh => hf' (by omega)
    have n5 : c ≠ 109 := fun hh => hf' (by omega)
    have n6 : c ≠ 115 := fun hh => hf' (by omega)
    have n7 : c ≠ 79 := fun hh => hf' (by omega)
    simp only [n1, n2, n3, if_neg n4, if_neg n5, if_neg n6, if_neg n7, if_false, or_false]
    have hrest : DInv st st.D st.M st.Y st.h st.m st.s st.O hD hM hY :=
      ⟨rfl, rfl, rfl, rfl, rfl, rfl, rfl, i8, i9, i10, i11⟩
    by_cases h43 : c = 43
    · by_cases hd : d = 43 ∨ d = 45
      · left
        refine ⟨⟨fun hh => absurd hh hf, fun _ => hd, fun _ hh => absurd h43 hh⟩, st, ?_, hrest⟩
        unfold dateStep
        rw [if_pos h43, if_neg (by omega)]
      · right
        refine ⟨fun hh => hd (hh.2.1 h43), ?_⟩
        unfold dateStep
        rw [if_pos h43, if_pos (by omega)]
    · by_cases hd : d = c
      · left
        refine ⟨⟨fun hh => absurd hh hf, fun hh => absurd hh h43, fun _ _ => hd⟩, st, ?_, hrest⟩
        unfold dateStep
        rw [if_neg h43, if_neg hf', if_neg (by omega)]
      · right
        refine ⟨fun hh => hd (hh.2.2 hf h43), ?_⟩
        unfold dateStep
        rw [if_neg h43, if_neg hf', if_pos hd]

theorem dateLoop_spec : ∀ (f t : Bytes) (st : DT) (D M Y h m s O : Nat) (hD hM hY : Prop),
    f.length = t.length → 111 ∉ f → DInv st D M Y h m s O hD hM hY →
    Room 68 D f → Room 77 M f → Room 89 Y f → Room 104 h f → Room 109 m f → Room 115 s f → Room 79 O f →
    (List.Forall₂ Fits f t ∧ ∃ st', dateLoop st f t = some st' ∧
      DInv st' (fieldVal 68 D f t) (fieldVal 77 M f t) (fieldVal 89 Y f t) (fieldVal 104 h f t) (fieldVal 109 m f t)
        (fieldVal 115 s f t) (fieldVal 79 O f t) (hD ∨ 68 ∈ f) (hM ∨ 77 ∈ f) (hY ∨ 89 ∈ f)) ∨
    (¬ List.Forall₂ Fits f t ∧ dateLoop st f t = none) := by
  intro f
  induction f with
  | nil =>
    intro t st D M Y h m s O hD hM hY hl ho hi _ _ _ _ _ _ _
    cases t with
    | nil => left; exact ⟨.nil, st, by simp [dateLoop], by simpa [fieldVal] using hi⟩
    | cons => simp at hl
  | cons c f ih =>
    intro t st D M Y h m s O hD hM hY hl ho hi r1 r2 r3 r4 r5 r6 r7
    cases t with
    | nil => simp at hl
    | cons d t =>
      have hl' : f.length = t.length := by simpa using hl
      have ho' : 111 ∉ f := fun hh => ho (List.mem_cons_of_mem _ hh)
      have hc : c ≠ 111 := fun hh => ho (by simp [hh])
      have key := dateStep_spec (d := d) (f := f) (hD := hD) (hM := hM) (hY := hY) hc hi r1 r2 r3 r4 r5 r6 r7
      rcases key with ⟨hfit, st1, hst1, hi1⟩ | ⟨hfit, hst1⟩
      · have hdg : ∀ x, FieldLetter x → c = x → 48 ≤ d ∧ d ≤ 57 := fun x hx he => hfit.1 (he ▸ hx)
        have := ih t st1 _ _ _ _ _ _ _ _ _ _ hl' ho' hi1
          (room_step r1 (hdg _ (by decide))) (room_step r2 (hdg _ (by decide))) (room_step r3 (hdg _ (by decide)))
          (room_step r4 (hdg _ (by decide))) (room_step r5 (hdg _ (by decide))) (room_step r6 (hdg _ (by decide)))
          (room_step r7 (hdg _ (by decide)))
        have hd : dateLoop st (c :: f) (d :: t) = dateLoop st1 f t := by simp [dateLoop, hst1]
        rcases this with ⟨hf, st', hst', hi'⟩ | ⟨hf, hn⟩
        · left
          refine ⟨.cons hfit hf, st', by rw [hd]; exact hst', ?_⟩
          obtain ⟨i1, i2, i3, i4, i5, i6, i7, i8, i9, i10, i11⟩ := hi'
          constructor <;> (try simp only [fieldVal, List.mem_cons]) <;> try assumption
          · rw [i9]; constructor
            · rintro ((hh | hh) | hh) <;> simp [hh]
            · rintro (hh | hh | hh) <;> simp [hh]
          · rw [i10]; constructor
            · rintro ((hh | hh) | hh) <;> simp [hh]
            · rintro (hh | hh | hh) <;> simp [hh]
          · rw [i11]; constructor
            · rintro ((hh | hh) | hh) <;> simp [hh]
            · rintro (hh | hh | hh) <;> simp [hh]
        · right
          refine ⟨?_, by rw [hd]; exact hn⟩
          intro hh
          cases hh with
          | cons _ h2 => exact hf h2
      · right
        refine ⟨?_, by simp [dateLoop, hst1]⟩
        intro hh
        cases hh with
        | cons h1 _ => exact hfit h1

theorem forall₂_len {α β : Type} {R : α → β → Prop} : ∀ {l : List α} {r : List β}, List.Forall₂ R l r → l.length = r.length
  | _, _, .nil => rfl
  | _, _, .cons _ h => by simp [forall₂_len h]

theorem isleap_iff (y : Nat) : isleap y = true ↔ Leap y := by
  simp only [isleap, Leap, Bool.or_eq_true, Bool.and_eq_true, beq_iff_eq, bne_iff_ne, Nat.dvd_iff_mod_eq_zero]
  omega

theorem daysOf_eq (y m : Nat) (h1 : 1 ≤ m) (h2 : m ≤ 12) : daysOf (isleap y) m = monthDays y m := by
  have hl := isleap_iff y
  by_cases hy : Leap y
  · rw [hl.2 hy]
    unfold monthDays
    interval_cases m <;> simp [daysOf, hy]
  · have : isleap y = false := by
      cases hh : isleap y
      · rfl
      · exact absurd (hl.1 hh) hy
    rw [this]
    unfold monthDays
    interval_cases m <;> simp [daysOf, hy]

/-- **C53 for any format without the letter `o`** and with no field of more than nine digits: the text is accepted
exactly if it fits the format and the numbers written in it are in their ranges. A day is checked only together with a
month; the year defaults to 0, which is leap. -/
theorem C53_format_partial (f t : Bytes) (ho : 111 ∉ f) (hc : ∀ x, FieldLetter x → f.count x ≤ 9) :
    checkDateTimeGen f t = true ↔
      List.Forall₂ Fits f t ∧
      (89 ∈ f → 1000 ≤ fieldVal 89 0 f t) ∧
      (77 ∈ f → 1 ≤ fieldVal 77 0 f t ∧ fieldVal 77 0 f t ≤ 12) ∧
      (68 ∈ f → 77 ∈ f → 1 ≤ fieldVal 68 0 f t ∧ fieldVal 68 0 f t ≤ monthDays (fieldVal 89 0 f t) (fieldVal 77 0 f t)) ∧
      fieldVal 104 0 f t ≤ 23 ∧ fieldVal 109 0 f t ≤ 59 ∧ fieldVal 115 0 f t ≤ 59 ∧ fieldVal 79 0 f t ≤ 23 := by
  unfold checkDateTimeGen
  by_cases hl : f.length = t.length
  · have hroom : ∀ x, FieldLetter x → Room x 0 f := fun x hx => ⟨by positivity, hc x hx⟩
    have := dateLoop_spec f t {} 0 0 0 0 0 0 0 False False False hl ho (by constructor <;> simp)
      (hroom _ (by decide)) (hroom _ (by decide)) (hroom _ (by decide)) (hroom _ (by decide)) (hroom _ (by decide))
      (hroom _ (by decide)) (hroom _ (by decide))
    rw [if_neg (by simpa using hl)]
    rcases this with ⟨hf, st, hst, i⟩ | ⟨hf, hn⟩
    · rw [hst]
      simp only [hf, true_and]
      obtain ⟨i1, i2, i3, i4, i5, i6, i7, i8, i9, i10, i11⟩ := i
      simp only [false_or] at i9 i10 i11
      unfold dateFinal
      rw [← i1, ← i2, ← i3, ← i4, ← i5, ← i6, ← i7, ← i9, ← i10, ← i11]
      by_cases hm : st.hasM = true → 1 ≤ st.M ∧ st.M ≤ 12
      · by_cases hM : st.hasM = true
        · obtain ⟨m1, m2⟩ := hm hM
          rw [daysOf_eq _ _ m1 m2]
          cases hY : st.hasY <;> cases hD : st.hasD <;> simp [hM, i8, m1, m2] <;> omega
        · have hM' : st.hasM = false := by simpa using hM
          cases hY : st.hasY <;> simp [hM', i8] <;> omega
      · have hM : st.hasM = true := by
          by_contra hh
          exact hm (fun h2 => absurd h2 hh)
        have hb : ¬ (1 ≤ st.M ∧ st.M ≤ 12) := fun hh => hm (fun _ => hh)
        have hb' : (st.M == 0 || decide (st.M > 12)) = true := by
          simp only [Bool.or_eq_true, beq_iff_eq, decide_eq_true_eq]; omega
        simp only [hM, hb', Bool.and_self, if_true, forall_const]
        constructor
        · intro hh; split at hh <;> simp at hh
        · intro hh; exact absurd hh.2.1 hb
    · rw [hn]
      simp [hf]
  · rw [if_pos (by simpa using hl)]
    simp only [Bool.false_eq_true, false_iff, not_and]
    intro hf
    exact absurd (forall₂_len hf) hl

example : (111 : Nat) ∉ fmtDateTime ∧ ∀ x, FieldLetter x → fmtDateTime.count x ≤ 9 := by
  refine ⟨by decide, ?_⟩
  intro x hx
  rw [fieldLetter_iff] at hx
  rcases hx with rfl | rfl | rfl | rfl | rfl | rfl | rfl | rfl | rfl <;> decide

theorem lens_named (f : Bytes) (h : f = fmtDate ∨ f = fmtTime ∨ f = fmtTimeZ ∨ f = fmtDateTime) :
    (111 : Nat) ∉ f ∧ ∀ x, FieldLetter x → f.count x ≤ 9 := by
  refine ⟨?_, ?_⟩
  · rcases h with rfl | rfl | rfl | rfl <;> decide
  · intro x hx
    rw [fieldLetter_iff] at hx
    rcases h with rfl | rfl | rfl | rfl <;>
      rcases hx with rfl | rfl | rfl | rfl | rfl | rfl | rfl | rfl | rfl <;> decide

theorem fits_digit {c d : Nat} (h : FieldLetter c) : Fits c d ↔ 48 ≤ d ∧ d ≤ 57 := by
  have h43 : c ≠ 43 := by rw [fieldLetter_iff] at h; omega
  exact ⟨fun hh => hh.1 h, fun hh => ⟨fun _ => hh, fun h2 => absurd h2 h43, fun h2 => absurd h h2⟩⟩

theorem fits_lit {c d : Nat} (h : ¬ FieldLetter c) (h43 : c ≠ 43) : Fits c d ↔ d = c :=
  ⟨fun hh => hh.2.2 h h43, fun hh => ⟨fun h2 => absurd h2 h, fun h2 => absurd h2 h43, fun _ _ => hh⟩⟩

theorem decN2 (v : Nat) : decN 2 v = [48 + v / 10 % 10, 48 + v % 10] := rfl
theorem decN4 (v : Nat) : decN 4 v = [48 + v / 10 / 10 / 10 % 10, 48 + v / 10 / 10 % 10, 48 + v / 10 % 10, 48 + v % 10] := rfl

/-- **C53 for the rule `date`.** -/
theorem C53_date (t : Bytes) : checkDateTimeGen fmtDate t = true ↔
    ∃ y m d, RealDay y m d ∧ t = decN 4 y ++ [45] ++ decN 2 m ++ [45] ++ decN 2 d := by
  obtain ⟨h1, h2⟩ := lens_named fmtDate (by simp)
  rw [C53_format_partial _ _ h1 h2]
  simp only [show fmtDate = [89, 89, 89, 89, 45, 77, 77, 45, 68, 68] from by decide]
  constructor
  · rintro ⟨hf, r⟩
    simp only [List.forall₂_cons_left_iff, List.forall₂_nil_left_iff] at hf
    obtain ⟨a0, _, f0, ⟨a1, _, f1, ⟨a2, _, f2, ⟨a3, _, f3, ⟨a4, _, f4, ⟨a5, _, f5, ⟨a6, _, f6, ⟨a7, _, f7,
      ⟨a8, _, f8, ⟨a9, _, f9, rfl, rfl⟩, rfl⟩, rfl⟩, rfl⟩, rfl⟩, rfl⟩, rfl⟩, rfl⟩, rfl⟩, rfl⟩ := hf
    rw [fits_digit (by decide)] at f0 f1 f2 f3 f5 f6 f8 f9
    rw [fits_lit (by decide) (by decide)] at f4 f7
    simp [fieldVal] at r
    obtain ⟨r1, r2, r3⟩ := r
    refine ⟨(((a0 - 48) * 10 + (a1 - 48)) * 10 + (a2 - 48)) * 10 + (a3 - 48), (a5 - 48) * 10 + (a6 - 48),
      (a8 - 48) * 10 + (a9 - 48), ⟨r1, by omega, r2.1, r2.2, r3.1, r3.2⟩, ?_⟩
    simp only [decN2, decN4, List.cons_append, List.nil_append, List.cons.injEq, and_true]
    omega
  · rintro ⟨y, m, d, ⟨d1, d2, d3, d4, d5, d6⟩, rfl⟩
    have hd : d ≤ 31 := by
      have : monthDays y m ≤ 31 := by unfold monthDays; split_ifs <;> omega
      omega
    simp only [decN2, decN4, List.cons_append, List.nil_append, List.forall₂_cons, List.forall₂_nil_left_iff]
    simp only [fits_digit (show FieldLetter 89 by decide), fits_digit (show FieldLetter 77 by decide),
      fits_digit (show FieldLetter 68 by decide), fits_lit (show ¬ FieldLetter 45 by decide) (show 45 ≠ 43 by decide)]
    refine ⟨by (repeat' apply And.intro) <;> first | trivial | omega, ?_⟩
    simp [fieldVal]
    have ey : ((y / 10 / 10 / 10 % 10 * 10 + y / 10 / 10 % 10) * 10 + y / 10 % 10) * 10 + y % 10 = y := by omega
    have em : m / 10 % 10 * 10 + m % 10 = m := by omega
    have ed : d / 10 % 10 * 10 + d % 10 = d := by omega
    rw [ey, em, ed]
    exact ⟨d1, ⟨d3, d4⟩, d5, d6⟩

example : RealDay 2024 2 29 ∧ ¬ RealDay 1900 2 29 := by
  simp [RealDay, monthDays, Leap]

/-- **C53 for the rule `time`.** -/
theorem C53_time (t : Bytes) : checkDateTimeGen fmtTime t = true ↔
    ∃ h m s, RealTime h m s ∧ t = decN 2 h ++ [58] ++ decN 2 m ++ [58] ++ decN 2 s := by
  obtain ⟨h1, h2⟩ := lens_named fmtTime (by simp)
  rw [C53_format_partial _ _ h1 h2]
  simp only [show fmtTime = [104, 104, 58, 109, 109, 58, 115, 115] from by decide]
  constructor
  · rintro ⟨hf, r⟩
    simp only [List.forall₂_cons_left_iff, List.forall₂_nil_left_iff] at hf
    obtain ⟨a0, _, f0, ⟨a1, _, f1, ⟨a2, _, f2, ⟨a3, _, f3, ⟨a4, _, f4, ⟨a5, _, f5, ⟨a6, _, f6, ⟨a7, _, f7,
      rfl, rfl⟩, rfl⟩, rfl⟩, rfl⟩, rfl⟩, rfl⟩, rfl⟩, rfl⟩ := hf
    rw [fits_digit (by decide)] at f0 f1 f3 f4 f6 f7
    rw [fits_lit (by decide) (by decide)] at f2 f5
    simp [fieldVal] at r
    obtain ⟨r1, r2, r3⟩ := r
    refine ⟨(a0 - 48) * 10 + (a1 - 48), (a3 - 48) * 10 + (a4 - 48), (a6 - 48) * 10 + (a7 - 48),
      ⟨by omega, by omega, by omega⟩, ?_⟩
    simp only [decN2, List.cons_append, List.nil_append, List.cons.injEq, and_true]
    omega
  · rintro ⟨h, m, s, ⟨d1, d2, d3⟩, rfl⟩
    simp only [decN2, List.cons_append, List.nil_append, List.forall₂_cons, List.forall₂_nil_left_iff]
    simp only [fits_digit (show FieldLetter 104 by decide), fits_digit (show FieldLetter 109 by decide),
      fits_digit (show FieldLetter 115 by decide), fits_lit (show ¬ FieldLetter 58 by decide) (show 58 ≠ 43 by decide)]
    refine ⟨by (repeat' apply And.intro) <;> first | trivial | omega, ?_⟩
    simp [fieldVal]
    omega

/-- **C53 for the rule `timez`.** -/
theorem C53_timez (t : Bytes) : checkDateTimeGen fmtTimeZ t = true ↔
    ∃ h m s, RealTime h m s ∧ t = decN 2 h ++ [58] ++ decN 2 m ++ [58] ++ decN 2 s ++ [90] := by
  obtain ⟨h1, h2⟩ := lens_named fmtTimeZ (by simp)
  rw [C53_format_partial _ _ h1 h2]
  simp only [show fmtTimeZ = [104, 104, 58, 109, 109, 58, 115, 115, 90] from by decide]
  constructor
  · rintro ⟨hf, r⟩
    simp only [List.forall₂_cons_left_iff, List.forall₂_nil_left_iff] at hf
    obtain ⟨a0, _, f0, ⟨a1, _, f1, ⟨a2, _, f2, ⟨a3, _, f3, ⟨a4, _, f4, ⟨a5, _, f5, ⟨a6, _, f6, ⟨a7, _, f7,
      ⟨a8, _, f8, rfl, rfl⟩, rfl⟩, rfl⟩, rfl⟩, rfl⟩, rfl⟩, rfl⟩, rfl⟩, rfl⟩ := hf
    rw [fits_digit (by decide)] at f0 f1 f3 f4 f6 f7
    rw [fits_lit (by decide) (by decide)] at f2 f5 f8
    simp [fieldVal] at r
    obtain ⟨r1, r2, r3⟩ := r
    refine ⟨(a0 - 48) * 10 + (a1 - 48), (a3 - 48) * 10 + (a4 - 48), (a6 - 48) * 10 + (a7 - 48),
      ⟨by omega, by omega, by omega⟩, ?_⟩
    simp only [decN2, List.cons_append, List.nil_append, List.cons.injEq, and_true]
    omega
  · rintro ⟨h, m, s, ⟨d1, d2, d3⟩, rfl⟩
    simp only [decN2, List.cons_append, List.nil_append, List.forall₂_cons, List.forall₂_nil_left_iff]
    simp only [fits_digit (show FieldLetter 104 by decide), fits_digit (show FieldLetter 109 by decide),
      fits_digit (show FieldLetter 115 by decide), fits_lit (show ¬ FieldLetter 58 by decide) (show 58 ≠ 43 by decide),
      fits_lit (show ¬ FieldLetter 90 by decide) (show 90 ≠ 43 by decide)]
    refine ⟨by (repeat' apply And.intro) <;> first | trivial | omega, ?_⟩
    simp [fieldVal]
    omega

example : RealTime 23 59 0 ∧ ¬ RealTime 23 59 60 := by simp [RealTime]

/-- **C53 for the rules `datetime` and `datetimez`.** -/
theorem C53_datetime (t : Bytes) : checkDateTimeGen fmtDateTime t = true ↔
    ∃ y m d h mi s, RealDay y m d ∧ RealTime h mi s ∧
      t = decN 4 y ++ [45] ++ decN 2 m ++ [45] ++ decN 2 d ++ [84] ++ decN 2 h ++ [58] ++ decN 2 mi ++ [58] ++
        decN 2 s ++ [90] := by
  obtain ⟨h1, h2⟩ := lens_named fmtDateTime (by simp)
  rw [C53_format_partial _ _ h1 h2]
  simp only [show fmtDateTime = [89, 89, 89, 89, 45, 77, 77, 45, 68, 68, 84, 104, 104, 58, 109, 109, 58, 115, 115, 90]
    from by decide]
  constructor
  · rintro ⟨hf, r⟩
    simp only [List.forall₂_cons_left_iff, List.forall₂_nil_left_iff] at hf
    obtain ⟨a0, _, f0, ⟨a1, _, f1, ⟨a2, _, f2, ⟨a3, _, f3, ⟨a4, _, f4, ⟨a5, _, f5, ⟨a6, _, f6, ⟨a7, _, f7,
      ⟨a8, _, f8, ⟨a9, _, f9, ⟨b0, _, g0, ⟨b1, _, g1, ⟨b2, _, g2, ⟨b3, _, g3, ⟨b4, _, g4, ⟨b5, _, g5, ⟨b6, _, g6,
      ⟨b7, _, g7, ⟨b8, _, g8, ⟨b9, _, g9, rfl, rfl⟩, rfl⟩, rfl⟩, rfl⟩, rfl⟩, rfl⟩, rfl⟩, rfl⟩, rfl⟩, rfl⟩, rfl⟩, rfl⟩,
      rfl⟩, rfl⟩, rfl⟩, rfl⟩, rfl⟩, rfl⟩, rfl⟩, rfl⟩ := hf
    rw [fits_digit (by decide)] at f0 f1 f2 f3 f5 f6 f8 f9 g1 g2 g4 g5 g7 g8
    rw [fits_lit (by decide) (by decide)] at f4 f7 g0 g3 g6 g9
    simp [fieldVal] at r
    obtain ⟨r1, r2, r3, r4, r5, r6⟩ := r
    refine ⟨(((a0 - 48) * 10 + (a1 - 48)) * 10 + (a2 - 48)) * 10 + (a3 - 48), (a5 - 48) * 10 + (a6 - 48),
      (a8 - 48) * 10 + (a9 - 48), (b1 - 48) * 10 + (b2 - 48), (b4 - 48) * 10 + (b5 - 48), (b7 - 48) * 10 + (b8 - 48),
      ⟨r1, by omega, r2.1, r2.2, r3.1, r3.2⟩, ⟨by omega, by omega, by omega⟩, ?_⟩
    clear r1 r2 r3 r4 r5 r6
    simp only [decN2, decN4, List.cons_append, List.nil_append, List.cons.injEq, and_true]
    refine ⟨?_, ?_, ?_, ?_, f4, ?_, ?_, f7, ?_, ?_, g0, ?_, ?_, g3, ?_, ?_, g6, ?_, ?_, g9⟩ <;> omega
  · rintro ⟨y, m, d, h, mi, s, ⟨d1, d2, d3, d4, d5, d6⟩, ⟨t1, t2, t3⟩, rfl⟩
    have hd : d ≤ 31 := by
      have : monthDays y m ≤ 31 := by unfold monthDays; split_ifs <;> omega
      omega
    simp only [decN2, decN4, List.cons_append, List.nil_append, List.forall₂_cons, List.forall₂_nil_left_iff]
    simp only [fits_digit (show FieldLetter 89 by decide), fits_digit (show FieldLetter 77 by decide),
      fits_digit (show FieldLetter 68 by decide), fits_lit (show ¬ FieldLetter 45 by decide) (show 45 ≠ 43 by decide),
      fits_digit (show FieldLetter 104 by decide), fits_digit (show FieldLetter 109 by decide),
      fits_digit (show FieldLetter 115 by decide), fits_lit (show ¬ FieldLetter 58 by decide) (show 58 ≠ 43 by decide),
      fits_lit (show ¬ FieldLetter 90 by decide) (show 90 ≠ 43 by decide),
      fits_lit (show ¬ FieldLetter 84 by decide) (show 84 ≠ 43 by decide)]
    refine ⟨by
      clear d6
      (repeat' apply And.intro) <;> first | trivial | omega, ?_⟩
    simp [fieldVal]
    have ey : ((y / 10 / 10 / 10 % 10 * 10 + y / 10 / 10 % 10) * 10 + y / 10 % 10) * 10 + y % 10 = y := by omega
    have em : m / 10 % 10 * 10 + m % 10 = m := by omega
    have ed : d / 10 % 10 * 10 + d % 10 = d := by omega
    rw [ey, em, ed]
    exact ⟨d1, ⟨d3, d4⟩, ⟨d5, d6⟩, by omega, by omega, by omega⟩

/-- **C53 does not hold for formats with an offset**: minutes of the offset are computed from its hours. `+09:05` is
rejected and `+01:99` is accepted. -/
theorem C53_violation_offset :
    checkDateTimeGen (ascii "+OO:oo") (ascii "+09:05") = false ∧
    checkDateTimeGen (ascii "+OO:oo") (ascii "+01:99") = true := by decide +kernel

/-- With an offset of hours and minutes the test is on the last digit of the minutes with the hours before it: for all digits, offsets of up to
five hours are accepted with any minutes, later ones never. -/
theorem C53_violation_minutes (a b c d : Nat) (ha : 48 ≤ a ∧ a ≤ 57) (hb : 48 ≤ b ∧ b ≤ 57) (hc : 48 ≤ c ∧ c ≤ 57) (hd : 48 ≤ d ∧ d ≤ 57) :
    checkDateTimeGen (ascii "+OO:oo") [43, a, b, 58, c, d] = true ↔ a = 48 ∧ b ≤ 53 := by
  have da : isdigit a = true := by simp [isdigit]; omega
  have db : isdigit b = true := by simp [isdigit]; omega
  have dc : isdigit c = true := by simp [isdigit]; omega
  have dd : isdigit d = true := by simp [isdigit]; omega
  have e : ascii "+OO:oo" = [43, 79, 79, 58, 111, 111] := by decide +kernel
  rw [e]
  simp [checkDateTimeGen, dateLoop, dateStep, da, db, dc, dd, dateFinal, acc]
  rw [Nat.mod_eq_of_lt (show a - 48 < 4294967296 by omega), Nat.mod_eq_of_lt (show (a - 48) * 10 + (b - 48) < 4294967296 by omega),
    Nat.mod_eq_of_lt (show ((a - 48) * 10 + (b - 48)) * 10 + (d - 48) < 4294967296 by omega)]
  omega

example : (48 ≤ 48 ∧ 48 ≤ 57) ∧ (48 ≤ 53 ∧ 53 ≤ 57) ∧ checkDateTimeGen (ascii "+OO:oo") [43, 48, 53, 58, 57, 57] = true := by decide +kernel

/-- Without a month any day is accepted; without a year 29 February is accepted; ten digits wrap around. -/
theorem C53_violation_fields :
    checkDateTimeGen (ascii "DD") (ascii "99") = true ∧
    checkDateTimeGen (ascii "MM-DD") (ascii "02-29") = true ∧
    checkDateTimeGen (ascii "hhhhhhhhhh") (ascii "4294967296") = true := by decide +kernel

/-! ## Character sets -/

/-- What a set describes, read from the left: `a-b` is a range, another character stands for itself. -/
def setItems : List Nat → List (Nat × Nat)
  | a :: b :: c :: t => if b = 45 then (a, c) :: setItems t else (a, a) :: setItems (b :: c :: t)
  | a :: t => (a, a) :: setItems t
  | [] => []

/-- The character is described by the set. -/
def InDescr (r : List Nat) (x : Nat) : Prop := ∃ p ∈ setItems r, p.1 ≤ x ∧ x ≤ p.2

/-- The character is one of the last two of the description. -/
def LastTwo (r : List Nat) (x : Nat) : Prop := r[r.length - 2]? = some x ∨ r[r.length - 1]? = some x

instance (r : List Nat) (x : Nat) : Decidable (InDescr r x) := inferInstanceAs (Decidable (∃ p ∈ setItems r, _))
instance (r : List Nat) (x : Nat) : Decidable (LastTwo r x) := inferInstanceAs (Decidable (_ ∨ _))

theorem rd_view {buf r rest : List Nat} {off i : Nat} (hb : buf.drop off = r ++ rest) (hi : i < r.length) :
    rd buf off i = .ok r[i] := by
  unfold rd
  have : buf[off + i]? = some r[i] := by
    rw [← List.getElem?_drop, hb, List.getElem?_append_left hi, List.getElem?_eq_getElem hi]
  rw [this]

theorem scan_spec {buf r rest : List Nat} {off : Nat} (hb : buf.drop off = r ++ rest) (h2 : 2 ≤ r.length) (x : Nat) :
    ∀ (n i : Nat), i ≤ r.length → r.length < n + i →
      ∃ b, scan buf off (r.length - 2) x n i = .ok b ∧
        ((b = true ∨ LastTwo r x) ↔ (InDescr (r.drop i) x ∨ LastTwo r x)) := by
  intro n
  induction n with
  | zero => intro i h1 h3; omega
  | succ n ih =>
    intro i h1 h3
    unfold scan
    by_cases hi : i < r.length - 2
    · rw [if_pos hi]
      have i0 : i < r.length := by omega
      have i1 : i + 1 < r.length := by omega
      have i2 : i + 2 < r.length := by omega
      rw [rd_view hb i1, rd_view hb i0, rd_view hb i2]
      have hdrop : r.drop i = r[i] :: r[i + 1] :: r[i + 2] :: r.drop (i + 3) := by
        rw [List.drop_eq_getElem_cons i0, List.drop_eq_getElem_cons i1, List.drop_eq_getElem_cons i2]
      simp only [Res.bind_ok, Res.pure_eq]
      by_cases hm : r[i + 1] = 45
      · rw [if_pos hm]
        have hit : InDescr (r.drop i) x ↔ (r[i] ≤ x ∧ x ≤ r[i + 2]) ∨ InDescr (r.drop (i + 3)) x := by
          rw [hdrop]; simp [InDescr, setItems, hm]
        by_cases hx : r[i] ≤ x ∧ x ≤ r[i + 2]
        · rw [if_pos hx]
          exact ⟨true, rfl, by rw [hit]; simp [hx]⟩
        · rw [if_neg hx]
          obtain ⟨b, hb1, hb2⟩ := ih (i + 3) (by omega) (by omega)
          exact ⟨b, hb1, by rw [hb2, hit]; simp [hx]⟩
      · rw [if_neg hm]
        have hit : InDescr (r.drop i) x ↔ x = r[i] ∨ InDescr (r.drop (i + 1)) x := by
          rw [hdrop, List.drop_eq_getElem_cons i1, List.drop_eq_getElem_cons i2]
          simp only [InDescr, setItems, if_neg hm, List.mem_cons, exists_eq_or_imp]
          constructor
          · rintro (hh | hh)
            · left; omega
            · right; exact hh
          · rintro (hh | hh)
            · left; omega
            · right; exact hh
        by_cases hx : x = r[i]
        · rw [if_pos hx]
          exact ⟨true, rfl, by rw [hit]; simp [hx]⟩
        · rw [if_neg hx]
          obtain ⟨b, hb1, hb2⟩ := ih (i + 1) (by omega) (by omega)
          exact ⟨b, hb1, by rw [hb2, hit]; simp [hx]⟩
    · rw [if_neg hi]
      refine ⟨false, rfl, ?_⟩
      simp only [Bool.false_eq_true, false_or]
      constructor
      · exact fun h => .inr h
      · rintro (h | h)
        · obtain ⟨p, hp, hx⟩ := h
          have hcase : i = r.length - 2 ∨ i = r.length - 1 ∨ i = r.length := by omega
          have e1 : r.length - 2 < r.length := by omega
          have e2 : r.length - 1 < r.length := by omega
          have d0 : r.drop r.length = [] := by simp
          have d1 : r.drop (r.length - 1) = [r[r.length - 1]] := by
            rw [List.drop_eq_getElem_cons e2, show r.length - 1 + 1 = r.length by omega, d0]
          have d2 : r.drop (r.length - 2) = [r[r.length - 2], r[r.length - 1]] := by
            rw [List.drop_eq_getElem_cons e1]
            simp only [show r.length - 2 + 1 = r.length - 1 by omega, d1]
          unfold LastTwo
          rw [List.getElem?_eq_getElem e1, List.getElem?_eq_getElem e2]
          rcases hcase with rfl | rfl | rfl
          · rw [d2] at hp
            simp only [setItems, List.mem_cons, List.not_mem_nil, or_false] at hp
            rcases hp with rfl | rfl
            · left; simp only [Option.some.injEq]; simp only at hx; omega
            · right; simp only [Option.some.injEq]; simp only at hx; omega
          · rw [d1] at hp
            simp only [setItems, List.mem_cons, List.not_mem_nil, or_false] at hp
            subst hp
            right; simp only [Option.some.injEq]; simp only at hx; omega
          · rw [d0] at hp
            simp [setItems] at hp
        · exact h

theorem inSet_spec {buf r rest : List Nat} {off : Nat} (hb : buf.drop off = r ++ rest) (h2 : 2 ≤ r.length)
    (hl : r.length < 2 ^ 64) (x : Nat) :
    inSet buf off r.length x = .ok (decide (InDescr r x ∨ LastTwo r x)) := by
  have hbl : r.length ≤ buf.length := by
    have := congrArg List.length hb
    simp at this
    omega
  have hs : VOps.sub64 r.length 2 = r.length - 2 := by unfold VOps.sub64; omega
  unfold inSet
  rw [hs]
  obtain ⟨b, hb1, hb2⟩ := scan_spec hb h2 x (buf.length + 1) 0 (by omega) (by omega)
  rw [hb1]
  simp only [Res.bind_ok, List.drop_zero] at hb2 ⊢
  cases b with
  | true =>
    have : InDescr r x ∨ LastTwo r x := hb2.1 (.inl rfl)
    simp [this]
  | false =>
    simp only [Bool.false_eq_true, if_false, false_or] at hb2 ⊢
    have e1 : r.length - 2 < r.length := by omega
    have e2 : r.length - 1 < r.length := by omega
    obtain ⟨k, hk⟩ : ∃ k, buf.length + 1 = k + 3 := ⟨buf.length - 2, by omega⟩
    rw [hk]
    unfold tail
    rw [if_pos e1, rd_view hb e1]
    simp only [Res.bind_ok, Res.pure_eq]
    have hlt : LastTwo r x ↔ x = r[r.length - 2] ∨ x = r[r.length - 1] := by
      unfold LastTwo
      rw [List.getElem?_eq_getElem e1, List.getElem?_eq_getElem e2]
      simp only [Option.some.injEq, eq_comm]
    have hdec : decide (InDescr r x ∨ LastTwo r x) = decide (x = r[r.length - 2] ∨ x = r[r.length - 1]) := by
      rw [decide_eq_decide]; exact hb2.symm.trans hlt
    rw [hdec]
    by_cases hx : x = r[r.length - 2]
    · rw [if_pos hx]; simp [hx]
    · rw [if_neg hx]
      unfold tail
      have e3 : r.length - 2 + 1 = r.length - 1 := by omega
      rw [e3, if_pos e2, rd_view hb e2]
      simp only [Res.bind_ok, Res.pure_eq]
      by_cases hy : x = r[r.length - 1]
      · rw [if_pos hy]; simp [hy]
      · rw [if_neg hy]
        unfold tail
        rw [if_neg (by omega)]
        simp [hx, hy]

theorem charStep_dec (P Q : Prop) [Decidable P] [Decidable Q] (neg : Bool) [Decidable ((P ↔ neg = false) ∧ Q)] :
    (if decide P = neg then Res.ok false else Res.ok (decide Q)) = Res.ok (decide ((P ↔ neg = false) ∧ Q)) := by
  cases neg <;> by_cases h : P <;> simp [h]

theorem charLoop_spec {buf r rest : List Nat} {off : Nat} (hb : buf.drop off = r ++ rest) (h2 : 2 ≤ r.length)
    (hl : r.length < 2 ^ 64) (neg : Bool) (subj : List Nat) :
    charLoop buf off r.length neg subj =
      .ok (decide (∀ x ∈ subj, (InDescr r x ∨ LastTwo r x) ↔ neg = false)) := by
  induction subj with
  | nil => simp [charLoop]
  | cons x t ih =>
    simp only [charLoop, inSet_spec hb h2 hl, Res.bind_ok, Res.pure_eq, ih]
    have hsplit : (∀ y ∈ x :: t, (InDescr r y ∨ LastTwo r y) ↔ neg = false) ↔
        (((InDescr r x ∨ LastTwo r x) ↔ neg = false) ∧ ∀ y ∈ t, (InDescr r y ∨ LastTwo r y) ↔ neg = false) := by
      simp only [List.mem_cons, forall_eq_or_imp]
    rw [decide_eq_decide.2 hsplit]
    exact charStep_dec _ _ _

/-- **What a set accepts.** For every description of at least two characters that does not start with `^`: the subject
is accepted exactly if it is not empty and each of its characters is described by the set *or is one of the last two
characters of the description*. -/
theorem C54_accept (r subj : List Nat) (h2 : 2 ≤ r.length) (hl : r.length < 2 ^ 63) (hc : r[0]? ≠ some 94) :
    opTestCharset subj (91 :: r ++ [93]) =
      .ok (decide (subj ≠ [] ∧ ∀ x ∈ subj, InDescr r x ∨ LastTwo r x)) := by
  have hne : r ≠ [] := by rintro rfl; simp at h2
  have hs : VOps.substr (91 :: r ++ [93]) 1 (VOps.sub64 (91 :: r ++ [93]).length 2) = r := by
    have : VOps.sub64 (91 :: r ++ [93]).length 2 = r.length := by
      simp only [List.cons_append, List.length_cons, List.length_append, List.length_nil]
      unfold VOps.sub64; omega
    rw [this]
    simp [VOps.substr]
  unfold opTestCharset
  simp only [hs]
  rw [if_neg hne]
  by_cases he : subj = []
  · simp [he]
  · rw [if_neg he, if_neg (fun hh => hc hh.1)]
    rw [charLoop_spec (buf := 91 :: r ++ [93] ++ [0]) (r := r) (rest := [93, 0]) (off := 1) (by simp) h2 (by omega)]
    simp [he]

/-- **What a negated set accepts.** -/
theorem C54_accept_neg (r subj : List Nat) (h2 : 2 ≤ r.length) (hl : r.length < 2 ^ 63) :
    opTestCharset subj (91 :: 94 :: r ++ [93]) =
      .ok (decide (subj ≠ [] ∧ ∀ x ∈ subj, ¬ (InDescr r x ∨ LastTwo r x))) := by
  have hs : VOps.substr (91 :: 94 :: r ++ [93]) 1 (VOps.sub64 (91 :: 94 :: r ++ [93]).length 2) = 94 :: r := by
    have : VOps.sub64 (91 :: 94 :: r ++ [93]).length 2 = r.length + 1 := by
      simp only [List.cons_append, List.length_cons, List.length_append, List.length_nil]
      unfold VOps.sub64; omega
    rw [this]
    simp [VOps.substr]
  unfold opTestCharset
  simp only [hs]
  rw [if_neg (by simp)]
  by_cases he : subj = []
  · simp [he]
  · rw [if_neg he, if_pos (by simp; omega)]
    have := charLoop_spec (buf := 91 :: 94 :: r ++ [93] ++ [0]) (r := r) (rest := [93, 0]) (off := 2) (by simp) h2
      (by omega) true subj
    simp only [List.length_cons, Nat.add_sub_cancel]
    rw [this]
    simp [he]

/-- **C54 where it holds**: for descriptions of at least two characters whose last two characters are themselves
described, as `0-9a-f_.` or `ab`. Missing: sets that end in a range of more characters and `-` (see the violations),
sets of one character. -/
theorem C54_exact_partial (r subj : List Nat) (h2 : 2 ≤ r.length) (hl : r.length < 2 ^ 63) (hc : r[0]? ≠ some 94)
    (hd : ∀ x, LastTwo r x → InDescr r x) :
    (opTestCharset subj (91 :: r ++ [93]) = .ok true ↔ subj ≠ [] ∧ ∀ x ∈ subj, InDescr r x) ∧
    (opTestCharset subj (91 :: 94 :: r ++ [93]) = .ok true ↔ subj ≠ [] ∧ ∀ x ∈ subj, ¬ InDescr r x) := by
  have h : ∀ x, (InDescr r x ∨ LastTwo r x) ↔ InDescr r x :=
    fun x => ⟨fun hh => hh.elim id (hd x), .inl⟩
  rw [C54_accept r subj h2 hl hc, C54_accept_neg r subj h2 hl]
  simp only [h, Res.ok.injEq, decide_eq_true_eq, and_self]

example : ∀ x, LastTwo (ascii "0-9a-f_.") x → InDescr (ascii "0-9a-f_.") x := by
  intro x hx
  have : x = 95 ∨ x = 46 := by
    rcases hx with hx | hx
    · left; exact (Option.some.inj hx).symm
    · right; exact (Option.some.inj hx).symm
  rcases this with rfl | rfl <;> decide

/-- The empty set accepts the empty string only. -/
theorem C54_empty (subj : List Nat) : opTestCharset subj (ascii "[]") = .ok (decide (subj = [])) := by
  have : VOps.substr (ascii "[]") 1 (VOps.sub64 (ascii "[]").length 2) = [] := by decide +kernel
  unfold opTestCharset
  simp only [this, if_true]
  rfl

/-- **C54 does not hold for a set that ends in a range**: `[a-z]` accepts the minus sign and `[^a-z]` rejects it. -/
theorem C54_violation_range :
    opTestCharset (ascii "-") (ascii "[a-z]") = .ok true ∧ ¬ InDescr (ascii "a-z") 45 ∧
    opTestCharset (ascii "-") (ascii "[^a-z]") = .ok false := by decide +kernel

/-- **C54 does not hold for sets of one character**: `adjlen` is 2^64-1. Every subject whose first character is neither
the listed one nor `]` makes the code read behind the end of the rule; `]` is accepted. -/
theorem C54_violation_single (c x : Nat) (t : List Nat) (h1 : x ≠ c) (h2 : x ≠ 93) :
    opTestCharset (x :: t) [91, c, 93] = .ub ∧ opTestCharset (x :: t) [91, 94, c, 93] = .ub ∧
    opTestCharset [93] [91, c, 93] = .ok true := by
  have s1 : VOps.sub64 1 2 = 18446744073709551615 := by decide +kernel
  have s3 : VOps.sub64 3 2 = 1 := by decide +kernel
  have s4 : VOps.sub64 4 2 = 2 := by decide +kernel
  refine ⟨?_, ?_, ?_⟩
  · simp [opTestCharset, VOps.substr, s3, charLoop, inSet, s1, scan, rd, h1, h2]
  · simp [opTestCharset, VOps.substr, s4, charLoop, inSet, s1, scan, rd, h1, h2]
  · by_cases hc : c = 93
    · subst hc
      simp [opTestCharset, VOps.substr, s3, charLoop, inSet, s1, scan, rd]
    · simp [opTestCharset, VOps.substr, s3, charLoop, inSet, s1, scan, rd]

example : (98 : Nat) ≠ 97 ∧ (98 : Nat) ≠ 93 := by decide

/-! ## String classes -/

theorem allIn_iff (p : Nat → Bool) (s : Bytes) : allIn p s = true ↔ ∀ c ∈ s, p c = true := by
  induction s with
  | nil => simp [allIn]
  | cons c t ih => cases h : p c <;> simp [allIn, h, ih]

theorem class_iff (p : Nat → Bool) (s : Bytes) (f : Bool) (hf : f = if s = [] then false else allIn p s) :
    f = true ↔ s ≠ [] ∧ ∀ c ∈ s, p c = true := by
  subst hf
  by_cases h : s = [] <;> simp [h, allIn_iff]

/-- **C93**: the classes of characters. -/
theorem C93_classes (s : Bytes) :
    (opDigits s = true ↔ s ≠ [] ∧ ∀ c ∈ s, 48 ≤ c ∧ c ≤ 57) ∧
    (opUppercase s = true ↔ s ≠ [] ∧ ∀ c ∈ s, 65 ≤ c ∧ c ≤ 90) ∧
    (opLowercase s = true ↔ s ≠ [] ∧ ∀ c ∈ s, 97 ≤ c ∧ c ≤ 122) ∧
    (opAlpha s = true ↔ s ≠ [] ∧ ∀ c ∈ s, (65 ≤ c ∧ c ≤ 90) ∨ (97 ≤ c ∧ c ≤ 122)) ∧
    (opAlnum s = true ↔ s ≠ [] ∧ ∀ c ∈ s, (65 ≤ c ∧ c ≤ 90) ∨ (97 ≤ c ∧ c ≤ 122) ∨ (48 ≤ c ∧ c ≤ 57)) ∧
    (opHex s = true ↔ s ≠ [] ∧ ∀ c ∈ s, (48 ≤ c ∧ c ≤ 57) ∨ (65 ≤ c ∧ c ≤ 70) ∨ (97 ≤ c ∧ c ≤ 102)) := by
  refine ⟨?_, ?_, ?_, ?_, ?_, ?_⟩
  · rw [class_iff _ s (opDigits s) rfl]; simp [isdigit]
  · rw [class_iff _ s (opUppercase s) rfl]; simp [isupper]
  · rw [class_iff _ s (opLowercase s) rfl]; simp [islower]
  · rw [class_iff _ s (opAlpha s) rfl]; simp [isalpha, isupper, islower]
  · rw [class_iff _ s (opAlnum s) rfl]; simp [isalnum, isdigit, isalpha, isupper, islower, or_assoc]
  · rw [class_iff _ s (opHex s) rfl]; simp [isxdigit, isdigit, or_assoc]

/-- Characters of the base64 alphabets: letters, digits and two more. -/
def B64Char (a b c : Nat) : Prop := (65 ≤ c ∧ c ≤ 90) ∨ (97 ≤ c ∧ c ≤ 122) ∨ (48 ≤ c ∧ c ≤ 57) ∨ c = a ∨ c = b

instance (a b c : Nat) : Decidable (B64Char a b c) := inferInstanceAs (Decidable (_ ∨ _))

/-- **C93**: `base64` accepts whole groups of four with at most two signs of padding at the end. -/
theorem C93_base64 (s : Bytes) : opBase64 s = true ↔
    ∃ body pad, s = body ++ List.replicate pad 61 ∧ pad ≤ 2 ∧ s ≠ [] ∧ s.length % 4 = 0 ∧ ∀ c ∈ body, B64Char 47 43 c := by
  have hp : ∀ c, ((isalnum c || c == 47 || c == 43) = true) ↔ B64Char 47 43 c := by
    intro c
    simp [isalnum, isalpha, isupper, islower, isdigit, B64Char]
    omega
  unfold opBase64
  by_cases h : s = []
  · rw [if_pos h]; simp [h]
  · rw [if_neg h]
    by_cases h4 : s.length % 4 = 0
    · rw [if_neg (by simpa using h4), allIn_iff]
      have hlen : 4 ≤ s.length := by
        have : 0 < s.length := List.length_pos_iff.2 h
        omega
      simp only [hp]
      have hx : ∀ (body : Bytes) pad, s = body ++ List.replicate pad 61 → ∀ k, body.length ≤ k → k < s.length →
          s[k]? = some 61 := by
        intro body pad hs k h1 h2
        rw [hs, List.getElem?_append_right h1]
        rw [hs] at h2
        simp at h2
        rw [List.getElem?_replicate]
        simp; omega
      constructor
      · intro hc
        refine ⟨s.take (dropEq s (dropEq s s.length)), s.length - dropEq s (dropEq s s.length), ?_, ?_, h, h4, hc⟩
        · conv_lhs => rw [← List.take_append_drop (dropEq s (dropEq s s.length)) s]
          congr 1
          apply List.ext_getElem?
          intro i
          rw [List.getElem?_drop, List.getElem?_replicate]
          unfold dropEq
          by_cases e1 : s[s.length - 1]? = some 61
          · simp only [e1, if_true]
            by_cases e2 : s[s.length - 1 - 1]? = some 61
            · simp only [e2, if_true]
              by_cases hi : i = 0
              · subst hi; simp [e2]; omega
              · by_cases hi1 : i = 1
                · subst hi1
                  rw [show s.length - 1 - 1 + 1 = s.length - 1 by omega, e1, if_pos (by omega)]
                · rw [if_neg (by omega), List.getElem?_eq_none (by omega)]
            · simp only [e2, if_false]
              by_cases hi : i = 0
              · subst hi; simp [e1]; omega
              · rw [if_neg (by omega), List.getElem?_eq_none (by omega)]
          · simp only [e1, if_false]
            rw [if_neg (by omega), List.getElem?_eq_none (by omega)]
        · unfold dropEq
          split_ifs <;> omega
      · rintro ⟨body, pad, hs, hpad, _, _, hc⟩
        intro c hcm
        apply hc
        have hb : s.length = body.length + pad := by rw [hs]; simp
        have hk : dropEq s (dropEq s s.length) ≤ body.length := by
          have e : pad = 0 ∨ pad = 1 ∨ pad = 2 := by omega
          rcases e with rfl | rfl | rfl
          · unfold dropEq; split_ifs <;> omega
          · have := hx body 1 hs (s.length - 1) (by omega) (by omega)
            unfold dropEq
            simp only [this, if_true]
            split_ifs <;> omega
          · have e1 := hx body 2 hs (s.length - 1) (by omega) (by omega)
            have e2 := hx body 2 hs (s.length - 1 - 1) (by omega) (by omega)
            unfold dropEq
            simp only [e1, e2, if_true]
            omega
        have : s.take (dropEq s (dropEq s s.length)) = body.take (dropEq s (dropEq s s.length)) := by
          generalize dropEq s (dropEq s s.length) = k at hk
          rw [hs, List.take_append_of_le_length hk]
        rw [this] at hcm
        exact List.mem_of_mem_take hcm
    · rw [if_pos (by simpa using h4)]
      simp only [Bool.false_eq_true, false_iff]
      rintro ⟨_, _, _, _, _, h5, _⟩
      exact h4 h5

example : ∃ body pad, ascii "QUI=" = body ++ List.replicate pad 61 ∧ pad ≤ 2 ∧ ∀ c ∈ body, B64Char 47 43 c :=
  ⟨ascii "QUI", 1, by decide, by decide, by decide⟩

/-- **C93**: `base64url` without padding. -/
theorem C93_base64url (s : Bytes) : opBase64url s = true ↔
    s ≠ [] ∧ s.length % 4 ≠ 1 ∧ ∀ c ∈ s, B64Char 45 95 c := by
  have hp : ∀ c, ((isalnum c || c == 45 || c == 95) = true) ↔ B64Char 45 95 c := by
    intro c
    simp [isalnum, isalpha, isupper, islower, isdigit, B64Char]
    omega
  unfold opBase64url
  by_cases h : s = []
  · simp [h]
  · by_cases h4 : s.length % 4 = 1
    · simp [h, h4]
    · rw [if_neg h, if_neg h4, allIn_iff]
      simp only [hp]
      simp [h, h4]

theorem identLoop_false (s : Bytes) : identLoop false s = true ↔ ∀ c ∈ s, isalnum c = true ∨ c = 95 := by
  induction s with
  | nil => simp [identLoop]
  | cons c t ih =>
    simp only [identLoop, List.mem_cons, forall_eq_or_imp]
    by_cases h : c = 95
    · subst h; simp [ih]
    · cases h2 : isalnum c <;> simp [ih, h]

/-- **C93**: `identifier` accepts a letter or underscore followed by letters, digits and underscores — *or nothing*. -/
theorem C93_identifier (s : Bytes) : opIsIdentifier s = true ↔
    s = [] ∨ ∃ c t, s = c :: t ∧ (isalpha c = true ∨ c = 95) ∧ ∀ x ∈ t, isalpha x = true ∨ isdigit x = true ∨ x = 95 := by
  cases s with
  | nil => simp [opIsIdentifier, identLoop]
  | cons c t =>
    simp only [opIsIdentifier, identLoop, reduceCtorEq, false_or, List.cons.injEq]
    have ha : ∀ x, isalnum x = true ↔ isalpha x = true ∨ isdigit x = true := by intro x; simp [isalnum]
    constructor
    · intro h
      split at h
      · simp at h
      · rename_i hh
        refine ⟨c, t, ⟨rfl, rfl⟩, ?_, ?_⟩
        · by_cases h95 : c = 95
          · exact .inr h95
          · left
            cases h2 : isalpha c
            · simp [h95, h2] at hh
            · rfl
        · intro x hx
          have := (identLoop_false t).1 h x hx
          rw [ha] at this
          tauto
    · rintro ⟨c', t', ⟨rfl, rfl⟩, h1, h2⟩
      rw [if_neg]
      · rw [identLoop_false]
        intro x hx
        rw [ha]
        have := h2 x hx
        tauto
      · rcases h1 with h1 | rfl
        · simp [h1, isalnum]
        · simp

/-- **C93 does not hold for the empty string**: it is an identifier (and in no other class). -/
theorem C93_violation_empty : opIsIdentifier [] = true ∧ opAlnum [] = false := by decide

end Imt.Props
