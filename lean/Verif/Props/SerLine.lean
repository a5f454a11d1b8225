import Verif.Props.Serializer
import Verif.Props.Compress
/-!
# Properties of UTF-8 output (C152) and of compressed documents (C153)
-/
namespace Imt.Props
open Imt Imt.Spec Imt.Ser Imt.Parser Imt.Compr

/-! ## C152 — UTF-8 output is one line of well-formed UTF-8 -/

mutual
/-- All strings and keys of the tree satisfy `Q`. -/
def AllStr (Q : Bytes → Prop) : JV → Prop
  | .str s => Q s
  | .arr l => AllStrL Q l
  | .obj l => AllStrM Q l
  | _ => True
/-- Items. -/
def AllStrL (Q : Bytes → Prop) : List JV → Prop
  | [] => True
  | v :: l => AllStr Q v ∧ AllStrL Q l
/-- Members. -/
def AllStrM (Q : Bytes → Prop) : List (Bytes × JV) → Prop
  | [] => True
  | (k, v) :: l => Q k ∧ AllStr Q v ∧ AllStrM Q l
end

/-- Texts with `P` may be joined, and ASCII texts have it. -/
structure Joins (P : Bytes → Prop) : Prop where
  app : ∀ a b, P a → P b → P (a ++ b)
  asc : ∀ a, Asc a → P a

theorem Joins.cons {P : Bytes → Prop} (h : Joins P) (a : Nat) (ha : 0x20 ≤ a ∧ a ≤ 0x7F) {b : Bytes} (hb : P b) : P (a :: b) :=
  h.app [a] b (h.asc [a] (Asc.cons ha (fun _ h => absurd h List.not_mem_nil))) hb

theorem Joins.nil {P : Bytes → Prop} (h : Joins P) : P [] := h.asc [] (fun _ h => absurd h List.not_mem_nil)

section
variable {P Q : Bytes → Prop} (hP : Joins P) (u8 : Bool) (f : Decimal → Bytes) (hQ : ∀ s, Q s → P (writeString u8 s))
  (hu : Q (ascii "undefined")) (hi : Q infSign ∧ Q (0x2D :: infSign))
include hP hQ hu hi
set_option linter.unusedSectionVars false

mutual
theorem ser_joins : (v : JV) → AllStr Q v → NumsAsc f v → P (ser u8 f v)
  | .undef, _, _ => by rw [ser]; exact hQ _ hu
  | .null, _, _ => by rw [ser]; exact hP.asc _ (by unfold Asc; decide)
  | .bool true, _, _ => by rw [ser]; exact hP.asc _ (by unfold Asc; decide)
  | .bool false, _, _ => by rw [ser]; exact hP.asc _ (by unfold Asc; decide)
  | .num (.uint n), _, _ => by rw [ser, writeNum]; exact hP.asc _ (asc_digits (writeUnsigned_spec n).1.2)
  | .num (.int i), _, _ => by rw [ser, writeNum]; exact hP.asc _ (asc_signed i)
  | .num (.dbl d), _, h => by rw [ser, writeNum]; rw [NumsAsc] at h; exact hP.asc _ h
  | .num (.inf true), _, _ => by rw [ser, writeNum]; exact hQ _ hi.2
  | .num (.inf false), _, _ => by rw [ser, writeNum]; exact hQ _ hi.1
  | .num (.prec t c), _, h => by rw [ser, writeNum]; rw [NumsAsc] at h; exact hP.asc _ h
  | .str s, h, _ => by rw [ser]; rw [AllStr] at h; exact hQ _ h
  | .arr l, h, h' => by
    rw [ser]; rw [NumsAsc] at h'; rw [AllStr] at h
    exact hP.cons _ (by decide) (hP.app _ _ (serItems_joins l h h') (hP.cons _ (by decide) hP.nil))
  | .obj l, h, h' => by
    rw [ser]; rw [NumsAsc] at h'; rw [AllStr] at h
    exact hP.cons _ (by decide) (hP.app _ _ (serMembers_joins l h h') (hP.cons _ (by decide) hP.nil))
theorem serItems_joins : (l : List JV) → AllStrL Q l → NumsAscL f l → P (serItems u8 f l)
  | [], _, _ => by rw [serItems]; exact hP.nil
  | [v], h, h' => by rw [serItems]; rw [NumsAscL] at h'; rw [AllStrL] at h; exact ser_joins v h.1 h'.1
  | v :: w :: r, h, h' => by
    rw [serItems]; rw [NumsAscL] at h'; rw [AllStrL] at h
    exact hP.app _ _ (ser_joins v h.1 h'.1) (hP.cons _ (by decide) (serItems_joins (w :: r) h.2 h'.2))
theorem serMembers_joins : (l : List (Bytes × JV)) → AllStrM Q l → NumsAscM f l → P (serMembers u8 f l)
  | [], _, _ => by rw [serMembers]; exact hP.nil
  | [(k, v)], h, h' => by
    rw [serMembers]; rw [NumsAscM] at h'; rw [AllStrM] at h
    exact hP.app _ _ (hQ _ h.1) (hP.cons _ (by decide) (ser_joins v h.2.1 h'.1))
  | (k, v) :: m :: r, h, h' => by
    rw [serMembers]; rw [NumsAscM] at h'; rw [AllStrM] at h
    exact hP.app _ _ (hQ _ h.1) (hP.cons _ (by decide) (hP.app _ _ (ser_joins v h.2.1 h'.1)
      (hP.cons _ (by decide) (serMembers_joins (m :: r) h.2.2 h'.2))))
end
end

/-! ### No raw control characters -/

/-- No byte below 0x20. -/
def Line (x : Bytes) : Prop := ∀ b ∈ x, 0x20 ≤ b

theorem line_joins : Joins Line where
  app := fun _ _ ha hb x hx => (List.mem_append.1 hx).elim (ha x) (hb x)
  asc := fun _ ha x hx => (ha x hx).1

/-- States of the decoder after `n` bytes. -/
def DecSt (d : Utf8.Dec) (n : Nat) : Prop :=
  d.b = 0 ∨ (d.b = 1 ∧ d.uchar < 2 ^ 15) ∨ (d.b = 2 ∧ d.uchar < 2 ^ 9) ∨ (d.b = 3 ∧ d.uchar < 2 ^ 3) ∨ (2 ^ 32 ≤ d.b + n ∧ d.b < 2 ^ 32)

theorem wide_line (w : Nat) (h1 : 0x80 ≤ w) (h2 : w < 2 ^ 21) : Line (Utf8.wideToUtf8 w) := by
  rw [Utf8.wideToUtf8_eq, if_neg (by omega)]
  intro b hb
  split at hb
  · simp only [List.mem_cons, List.not_mem_nil, or_false] at hb; omega
  split at hb
  · simp only [List.mem_cons, List.not_mem_nil, or_false] at hb; omega
  split at hb
  · simp only [List.mem_cons, List.not_mem_nil, or_false] at hb; omega
  · cases hb

theorem unicode_line (w : Nat) (h : w < 2 ^ 21) : Line (writeUnicode true w) := by
  unfold writeUnicode
  split
  · rename_i hc
    rw [if_neg (by omega)]
    exact wide_line w hc.2.1 h
  · exact fun b hb => (asc_escU w b hb).1

/-- One step of the decoder: the state stays as described, and what it emits is small. -/
theorem decSt_step {d : Utf8.Dec} {n : Nat} (h : DecSt d n) (c : Nat) (hc : c < 256) (hn : n + 1 < 2 ^ 32) :
    DecSt (d.step c).1 (n + 1) ∧ ∀ w, (d.step c).2 = some w → w < 2 ^ 21 := by
  obtain ⟨u, b⟩ := d
  rw [Utf8.Dec.step_eq _ _ hc]
  unfold DecSt at *
  dsimp only at h ⊢
  split
  · dsimp only
    refine ⟨?_, ?_⟩
    · rcases h with h | ⟨h, h'⟩ | ⟨h, h'⟩ | ⟨h, h'⟩ | h
      · subst h; right; right; right; right; omega
      · subst h; left; omega
      · subst h; right; left; omega
      · subst h; right; right; left; omega
      · right; right; right; right; omega
    · intro w hw
      split at hw
      · cases hw
        rcases h with h | ⟨h, h'⟩ | ⟨h, h'⟩ | ⟨h, h'⟩ | h <;> omega
      · cases hw
  · split
    · exact ⟨.inr (.inl ⟨rfl, by dsimp only; omega⟩), fun w hw => by cases hw⟩
    · split
      · exact ⟨.inr (.inr (.inl ⟨rfl, by dsimp only; omega⟩)), fun w hw => by cases hw⟩
      · split
        · exact ⟨.inr (.inr (.inr (.inl ⟨rfl, by dsimp only; omega⟩))), fun w hw => by cases hw⟩
        · refine ⟨?_, fun w hw => by cases hw; omega⟩
          dsimp only; omega

theorem body_line : ∀ (s : Bytes) (d : Utf8.Dec) (n : Nat), DecSt d n → n + s.length < 2 ^ 32 → (∀ b ∈ s, b < 256) →
    Line (body true d s)
  | [], d, n, _, _, _ => by rw [body]; exact fun _ h => absurd h List.not_mem_nil
  | c :: cs, d, n, h, hn, hv => by
    rw [List.length_cons] at hn
    have hv' : ∀ b ∈ cs, b < 256 := fun b hb => hv b (List.mem_cons_of_mem _ hb)
    have hsame : DecSt d (n + 1) := by
      unfold DecSt at *; omega
    rw [body]
    rcases shortEsc_cases c with ⟨e, he, hE⟩ | ⟨he, -, -⟩
    · rw [he]
      refine line_joins.cons _ (by decide) (line_joins.cons _ ?_ (body_line cs d (n + 1) hsame (by omega) hv'))
      cases hE <;> decide
    · rw [he]
      dsimp only
      obtain ⟨h1, h2⟩ := decSt_step h c (hv c (List.mem_cons_self ..)) (by omega)
      split
      · refine line_joins.app _ _ ?_ (body_line cs _ (n + 1) h1 (by omega) hv')
        cases hs : (d.step c).2 with
        | none => exact fun _ h => absurd h List.not_mem_nil
        | some w => exact unicode_line w (h2 w hs)
      · refine line_joins.cons _ (by omega) (body_line cs d (n + 1) hsame (by omega) hv')

/-- Strings of bytes, shorter than 4 GiB. -/
def Short (s : Bytes) : Prop := (∀ b ∈ s, b < 256) ∧ s.length < 2 ^ 32

theorem string_line (s : Bytes) (h : Short s) : Line (writeString true s) := by
  unfold writeString
  refine line_joins.cons _ (by decide) (line_joins.app _ _ (body_line s _ 0 (.inl rfl) (by have := h.2; omega) h.1) ?_)
  exact line_joins.cons _ (by decide) line_joins.nil

/-- **C152.** UTF-8 output has no raw control character (no byte below 0x20, so it is one line), whatever bytes the strings and keys have, well-formed
or not, as long as each is shorter than 4 GiB. Missing: longer strings, `C152_violation_long`. -/
theorem C152_line_partial (f : Decimal → Bytes) (v : JV) (h : AllStr Short v) (hn : NumsAsc f v) (t : Bytes)
    (ht : stringify true f v = .ok t) : ∀ b ∈ t, 0x20 ≤ b := by
  unfold stringify at ht
  split at ht
  · cases ht
  · cases ht
    exact ser_joins line_joins true f string_line (by unfold Short; decide) (by unfold Short; decide) v h hn

/-- Well-formed UTF-8 is closed under joining. -/
theorem wf_append {a b : Bytes} (ha : WellFormedUtf8 a) (hb : WellFormedUtf8 b) : WellFormedUtf8 (a ++ b) := by
  obtain ⟨x, hx, rfl⟩ := Utf8.encode_of_wf ha
  obtain ⟨y, hy, rfl⟩ := Utf8.encode_of_wf hb
  have : Utf8.encode x ++ Utf8.encode y = Utf8.encode (x ++ y) := by simp [Utf8.encode]
  rw [this]
  exact Utf8.wf_encode _ (fun w hw => (List.mem_append.1 hw).elim (hx w) (hy w))

theorem wf_joins : Joins WellFormedUtf8 where
  app := fun _ _ => wf_append
  asc := fun a ha => ascii_wf a (fun b hb => by have := ha b hb; omega)

theorem chr_wf (w : Nat) (h : IsScalar w) : WellFormedUtf8 (chr true w) := by
  have asc1 : ∀ e, 0x20 ≤ e ∧ e ≤ 0x7F → WellFormedUtf8 [0x5C, e] := fun e he =>
    wf_joins.cons _ (by decide) (wf_joins.cons _ he wf_joins.nil)
  unfold chr
  split
  · rcases shortEsc_cases w with ⟨e, he, hE⟩ | ⟨he, -, -⟩
    · rw [he]; exact asc1 e (by cases hE <;> decide)
    · rw [he]
      dsimp only
      split
      · exact wf_joins.asc _ (asc_escU w)
      · exact .one (by unfold inR; omega) .nil
  · unfold writeUnicode
    split
    · rw [if_neg (by unfold IsScalar at h; omega)]
      simpa using Utf8.wf_wide_append h .nil
    · exact wf_joins.asc _ (asc_escU w)

theorem string_wf (s : Bytes) (h : WellFormedUtf8 s) : WellFormedUtf8 (writeString true s) := by
  have key : ∀ (ws : List Nat) (d : Utf8.Dec), (∀ w ∈ ws, IsScalar w) → WellFormedUtf8 (body true d (Utf8.encode ws)) := by
    intro ws
    induction ws with
    | nil => intro d _; rw [Utf8.encode, List.flatMap_nil, body]; exact .nil
    | cons w ws ih =>
      intro d hs
      have hsc := hs w (by simp)
      obtain ⟨d', hd⟩ := body_wide true w (by unfold IsScalar at hsc; omega) d
      rw [Utf8.encode_cons, hd]
      exact wf_append (chr_wf w hsc) (ih d' (fun x hx => hs x (by simp [hx])))
  obtain ⟨ws, hs, rfl⟩ := Utf8.encode_of_wf h
  unfold writeString
  exact wf_joins.cons _ (by decide) (wf_append (key ws _ hs) (wf_joins.cons _ (by decide) wf_joins.nil))

/-- **C152.** If all strings and keys are well-formed UTF-8, so is the output. Missing: malformed strings, `C152_violation_malformed`. -/
theorem C152_utf8_partial (f : Decimal → Bytes) (v : JV) (h : AllStr WellFormedUtf8 v) (hn : NumsAsc f v) (t : Bytes)
    (ht : stringify true f v = .ok t) : WellFormedUtf8 t := by
  unfold stringify at ht
  split at ht
  · cases ht
  · cases ht
    have hi := infSign_ok true
    exact ser_joins wf_joins true f string_wf (ascii_undefined_ok true).1 ⟨hi.1.1, hi.2.1⟩ v h hn

example : AllStr Short (.arr [.str [0xFF, 0x0A, 0xC3], .obj [([0x80], .null)]]) ∧
    NumsAsc (fun _ => []) (.arr [.str [0xFF, 0x0A, 0xC3], .obj [([0x80], .null)]]) ∧
    stringify true (fun _ => []) (.arr [.str [0xFF, 0x0A, 0xC3], .obj [([0x80], .null)]]) =
      .ok (ascii "[\"" ++ [0xC3, 0xBF] ++ ascii "\\n\",{\"\":null}]") := by
  refine ⟨?_, ?_, by decide +kernel⟩
  · simp only [AllStr, AllStrL, AllStrM, Short]; decide
  · simp [NumsAsc, NumsAscL, NumsAscM]

example : AllStr WellFormedUtf8 (.arr [.str [0xC3, 0xA9, 0x0A]]) ∧
    stringify true (fun _ => []) (.arr [.str [0xC3, 0xA9, 0x0A]]) = .ok (ascii "[\"" ++ [0xC3, 0xA9] ++ ascii "\\n\"]") := by
  refine ⟨?_, by decide +kernel⟩
  simp only [AllStr, AllStrL, and_true]
  exact .two (by decide) (by decide) (.one (by decide) .nil)

/-- **C152 violated.** Bytes of a string that encode a surrogate are written as they are. -/
theorem C152_violation_malformed : stringify true (fun _ => []) (.str [0xED, 0xA0, 0x80]) = .ok (0x22 :: [0xED, 0xA0, 0x80, 0x22]) ∧
    ¬ WellFormedUtf8 (0x22 :: [0xED, 0xA0, 0x80, 0x22]) := by
  refine ⟨by decide +kernel, fun h => ?_⟩
  cases h with
  | one _ h =>
    cases h with
    | one h _ => unfold inR at h; omega
    | two h _ _ => unfold inR at h; omega
    | three2 h _ _ _ => unfold inR at h; omega
    | three3 h _ _ => unfold inR at h; omega
    | three4 h _ _ _ => unfold inR at h; omega
    | four2 h _ _ _ _ => unfold inR at h; omega
  | two h _ _ => unfold inR at h; omega
  | three2 h _ _ _ => unfold inR at h; omega
  | three4 h _ _ _ => unfold inR at h; omega
  | four2 h _ _ _ _ => unfold inR at h; omega

theorem body_cont (u b x : Nat) (hx : x < 64) (hb : 2 ≤ b) (hb' : b < 2 ^ 32) (t : Bytes) :
    body true ⟨u, b⟩ ((128 + x) :: t) = body true ⟨u * 64 % 2 ^ 32 + x, b - 1⟩ t := by
  rw [body_big _ _ _ _ (by omega), Utf8.Dec.step_cont _ _ hx]
  have : (b + (2 ^ 32 - 1)) % 2 ^ 32 = b - 1 := by omega
  rw [this, if_neg (by omega)]
  rfl

theorem body_stray : ∀ (n b : Nat) (t : Bytes), n < b → b < 2 ^ 32 →
    body true ⟨0x82082082, b⟩ (List.replicate n (128 + 2) ++ t) = body true ⟨0x82082082, b - n⟩ t
  | 0, b, t, _, _ => by simp
  | n + 1, b, t, h, h' => by
    rw [List.replicate_succ, List.cons_append, body_cont _ _ _ (by omega) (by omega) h', body_stray n (b - 1) t (by omega) (by omega)]
    have : b - 1 - n = b - (n + 1) := by omega
    rw [this]

theorem body_long (n : Nat) (h : n + 8 = 2 ^ 32) (t : Bytes) :
    body true Utf8.Dec.init ((128 + 2) :: (128 + 2) :: (128 + 2) :: (128 + 2) :: (128 + 2) :: (128 + 2) ::
      (List.replicate n (128 + 2) ++ ((128 + 0) :: (128 + 10) :: t))) = 10 :: body true ⟨0x8208200A, 0⟩ t := by
  rw [Utf8.Dec.init, body_big _ _ _ _ (by omega), Utf8.Dec.step_cont _ _ (by omega)]
  have e : (0 + (2 ^ 32 - 1)) % 2 ^ 32 = 2 ^ 32 - 1 := by decide
  dsimp only
  rw [e, if_neg (by decide)]
  show [] ++ body true ⟨2, 2 ^ 32 - 1⟩ _ = _
  rw [List.nil_append, body_cont _ _ _ (by omega) (by decide) (by decide), body_cont _ _ _ (by omega) (by decide) (by decide),
    body_cont _ _ _ (by omega) (by decide) (by decide), body_cont _ _ _ (by omega) (by decide) (by decide),
    body_cont _ _ _ (by omega) (by decide) (by decide)]
  have e2 : (((((2 * 64 % 2 ^ 32 + 2) * 64 % 2 ^ 32 + 2) * 64 % 2 ^ 32 + 2) * 64 % 2 ^ 32 + 2) * 64 % 2 ^ 32 + 2) = 0x82082082 := by decide
  have e3 : 2 ^ 32 - 1 - 1 - 1 - 1 - 1 - 1 = n + 2 := by omega
  rw [e2, e3, body_stray n (n + 2) _ (by omega) (by omega)]
  have e4 : n + 2 - n = 2 := by omega
  rw [e4, body_cont _ _ _ (by omega) (by omega) (by omega)]
  show body true ⟨0x82082080, 1⟩ _ = _
  rw [body_big _ _ _ _ (by omega), Utf8.Dec.step_cont _ _ (by omega)]
  rfl

/-- **C152 violated.** A string of 4 GiB continuation bytes: the counter of the decoder wraps around to zero, what it has collected is negative as an
`int`, and its low byte, a line feed, is written raw. -/
theorem C152_violation_long (f : Decimal → Bytes) : ∃ s : Bytes, s.length = 2 ^ 32 ∧ (∀ b ∈ s, b < 256) ∧
    stringify true f (.str s) = .ok [0x22, 0x0A, 0x22] := by
  have hn : ∃ n, n + 8 = 2 ^ 32 := ⟨2 ^ 32 - 8, by decide⟩
  obtain ⟨n, hn⟩ := hn
  refine ⟨(128 + 2) :: (128 + 2) :: (128 + 2) :: (128 + 2) :: (128 + 2) :: (128 + 2) ::
      (List.replicate n (128 + 2) ++ [128 + 0, 128 + 10]), ?_, ?_, ?_⟩
  · simp only [List.length_cons, List.length_append, List.length_replicate, List.length_nil]; omega
  · intro b hb
    simp only [List.mem_cons, List.mem_append, List.mem_replicate, List.not_mem_nil, or_false] at hb
    omega
  · have e : ∀ s, stringify true f (.str s) = .ok (writeString true s) := fun s => by
      rw [stringify, hasMin, ser, if_neg (by decide)]
      intros; contradiction
      all_goals intros; contradiction
    rw [e, writeString, body_long n hn [], body]
    rfl

/-! ## C153 — compressed documents -/

mutual
theorem printable_str (u8 : Bool) (f : Decimal → Bytes) : (v : JV) → Printable u8 f v → AllStr WellFormedUtf8 v
  | .undef, _ => trivial
  | .null, _ => trivial
  | .bool _, _ => trivial
  | .num _, _ => trivial
  | .str s, h => by rw [Printable] at h; exact h.1
  | .arr l, h => by rw [Printable] at h; rw [AllStr]; exact printable_strL u8 f l h
  | .obj l, h => by rw [Printable] at h; rw [AllStr]; exact printable_strM u8 f l h
theorem printable_strL (u8 : Bool) (f : Decimal → Bytes) : (l : List JV) → PrintableL u8 f l → AllStrL WellFormedUtf8 l
  | [], _ => trivial
  | v :: l, h => by rw [PrintableL] at h; exact ⟨printable_str u8 f v h.1, printable_strL u8 f l h.2⟩
theorem printable_strM (u8 : Bool) (f : Decimal → Bytes) : (l : List (Bytes × JV)) → PrintableM u8 f l → AllStrM WellFormedUtf8 l
  | [], _ => trivial
  | (k, v) :: l, h => by rw [PrintableM] at h; exact ⟨h.1.1, printable_str u8 f v h.2.1, printable_strM u8 f l h.2.2⟩
end

theorem numTok_asc (t : NumTok) (h : t.WF) : Asc t.text := by
  have dig : ∀ {x}, Digits1 x → Asc x := fun h => asc_digits h.2
  have nil : Asc [] := fun _ h => absurd h List.not_mem_nil
  unfold NumTok.text
  refine Asc.append ?_ (Asc.append (dig h.int.1) (Asc.append ?_ ?_))
  · split
    · exact Asc.cons (by decide) nil
    · exact nil
  · cases hf : t.frac with
    | none => exact nil
    | some x => exact Asc.cons (by decide) (dig (h.frac x hf))
  · cases he : t.exp with
    | none => exact nil
    | some x =>
      obtain ⟨h1, h2, h3⟩ := h.exp x he
      refine Asc.cons (by omega) (Asc.append ?_ (dig h3))
      rcases h2 with h2 | h2 | h2 <;> rw [h2]
      · exact nil
      · exact Asc.cons (by decide) nil
      · exact Asc.cons (by decide) nil

mutual
theorem printable_num (u8 : Bool) (f : Decimal → Bytes) : (v : JV) → Printable u8 f v → NumsAsc f v
  | .undef, _ => trivial
  | .null, _ => trivial
  | .bool _, _ => trivial
  | .num (.uint _), _ => trivial
  | .num (.int _), _ => trivial
  | .num (.inf _), _ => trivial
  | .num (.dbl d), h => by
    rw [Printable] at h; obtain ⟨t, h1, h2⟩ := h
    rw [NumsAsc, ← h2]; exact numTok_asc t h1
  | .num (.prec x c), h => by
    rw [Printable] at h; obtain ⟨t, h1, h2⟩ := h
    rw [NumsAsc, ← h2]; exact numTok_asc t h1
  | .str s, _ => trivial
  | .arr l, h => by rw [Printable] at h; rw [NumsAsc]; exact printable_numL u8 f l h
  | .obj l, h => by rw [Printable] at h; rw [NumsAsc]; exact printable_numM u8 f l h
theorem printable_numL (u8 : Bool) (f : Decimal → Bytes) : (l : List JV) → PrintableL u8 f l → NumsAscL f l
  | [], _ => trivial
  | v :: l, h => by rw [PrintableL] at h; exact ⟨printable_num u8 f v h.1, printable_numL u8 f l h.2⟩
theorem printable_numM (u8 : Bool) (f : Decimal → Bytes) : (l : List (Bytes × JV)) → PrintableM u8 f l → NumsAscM f l
  | [], _ => trivial
  | (k, v) :: l, h => by rw [PrintableM] at h; exact ⟨printable_num u8 f v h.2.1, printable_numM u8 f l h.2.2⟩
end

/-- Both predicates at once. -/
def CleanText (x : Bytes) : Prop := WellFormedUtf8 x ∧ Line x

theorem clean_joins : Joins CleanText where
  app := fun _ _ ha hb => ⟨wf_joins.app _ _ ha.1 hb.1, line_joins.app _ _ ha.2 hb.2⟩
  asc := fun _ ha => ⟨wf_joins.asc _ ha, line_joins.asc _ ha⟩

theorem chr_line (w : Nat) (h : IsScalar w) : Line (chr true w) := by
  unfold chr
  split
  · rcases shortEsc_cases w with ⟨e, he, hE⟩ | ⟨he, -, -⟩
    · rw [he]; exact line_joins.cons _ (by decide) (line_joins.cons _ (by cases hE <;> decide) line_joins.nil)
    · rw [he]
      dsimp only
      split
      · exact line_joins.asc _ (asc_escU w)
      · exact line_joins.cons _ (by omega) line_joins.nil
  · exact unicode_line w (by unfold IsScalar at h; omega)

/-- Well-formed strings give no raw control characters, however long they are. -/
theorem string_clean (s : Bytes) (h : WellFormedUtf8 s) : CleanText (writeString true s) := by
  refine ⟨string_wf s h, ?_⟩
  have key : ∀ (ws : List Nat) (d : Utf8.Dec), (∀ w ∈ ws, IsScalar w) → Line (body true d (Utf8.encode ws)) := by
    intro ws
    induction ws with
    | nil => intro d _; rw [Utf8.encode, List.flatMap_nil, body]; exact line_joins.nil
    | cons w ws ih =>
      intro d hs
      have hsc := hs w (by simp)
      obtain ⟨d', hd⟩ := body_wide true w (by unfold IsScalar at hsc; omega) d
      rw [Utf8.encode_cons, hd]
      exact line_joins.app _ _ (chr_line w hsc) (ih d' (fun x hx => hs x (by simp [hx])))
  obtain ⟨ws, hs, rfl⟩ := Utf8.encode_of_wf h
  unfold writeString
  exact line_joins.cons _ (by decide) (line_joins.app _ _ (key ws _ hs) (line_joins.cons _ (by decide) line_joins.nil))

theorem ser_clean (u8 : Bool) (f : Decimal → Bytes) (v : JV) (h : Printable u8 f v) : CleanText (ser u8 f v) := by
  cases u8 with
  | true =>
    have hi := infSign_ok true
    exact ser_joins clean_joins true f string_clean (ascii_undefined_ok true).1 ⟨hi.1.1, hi.2.1⟩ v (printable_str _ f v h)
      (printable_num _ f v h)
  | false =>
    have := asc_ser f v (printable_num _ f v h)
    exact clean_joins.asc _ this

/-- **C152.** Well-formed strings of any length: no raw control character and well-formed UTF-8. -/
theorem C152_clean_partial (u8 : Bool) (f : Decimal → Bytes) (v : JV) (h : Printable u8 f v) (t : Bytes)
    (ht : stringify u8 f v = .ok t) : WellFormedUtf8 t ∧ ∀ b ∈ t, 0x20 ≤ b := by
  unfold stringify at ht
  split at ht
  · cases ht
  · cases ht; exact ser_clean u8 f v h

/-- **C153.** Compressed documents: every value of the scope of C01 and C02 is written, the text is accepted by a new compressor, a new decompressor
gives the text back and leaves exactly what follows in the stream, and reading the text gives the value (the very same for plain trees). `u8` chooses
UTF-8 or escaped output. Missing: what is missing in C01 and C02. -/
theorem C153_trip_partial (u8 : Bool) (f : Decimal → Bytes) (cfg : Cfg) (htl : ∀ n < 2 ^ 64, cfg.tooLong n = false) (v : JV)
    (h : Printable u8 f v) (ht : Tripable cfg v) (rest : Bytes) :
    ∃ t out d v', stringify u8 f v = .ok t ∧ compressAll t = .ok out ∧ getAll (t.length + 1) { inp := out ++ rest } = .ok (t, d) ∧
      d.inp = rest ∧ parse cfg t = .ok (v', []) ∧ Reads cfg v v' ∧ (cfg.precise = false → Spec.Plain v → v' = v) := by
  obtain ⟨v', h1, h2⟩ := Trip.trip u8 f cfg htl v h ht [] [] ws_nil (by intro _ _ h; cases h)
  rw [List.nil_append, List.append_nil] at h1
  have hc := ser_clean u8 f v h
  have hne : ser u8 f v ≠ [] := by
    intro e
    rw [e] at h1
    have : parse cfg [] = .err := by rfl
    rw [this] at h1; cases h1
  obtain ⟨out, d, e1, e2, e3⟩ := C50_end (ser u8 f v) hc.1 hc.2 hne rest
  exact ⟨_, out, d, v', by rw [stringify, tripable_noMin cfg v ht]; rfl, e1, e2, e3, h1, h2, fun hp hpl => Trip.reads_eq cfg hp h2 hpl⟩

/-- **C153 does not hold where C01 and C02 do not**: compressed with escaped output, the text U+1F600 comes back as U+F600, and the text
"∞" as a number, although the decompressor gives back exactly what was compressed. -/
theorem C153_violation :
    (∃ t out d, stringify false (fun _ => []) (.str [0xF0, 0x9F, 0x98, 0x80]) = .ok t ∧ compressAll t = .ok out ∧
      getAll (t.length + 1) { inp := out } = .ok (t, d) ∧ d.inp = [] ∧ parse {} t = .ok (.str [0xEF, 0x98, 0x80], [])) ∧
    (∃ t out d, stringify true (fun _ => []) (.str infSign) = .ok t ∧ compressAll t = .ok out ∧
      getAll (t.length + 1) { inp := out } = .ok (t, d) ∧ d.inp = [] ∧ parse {} t = .ok (.num (.inf false), [])) := by
  constructor
  · obtain ⟨out, d, e1, e2, e3⟩ := C50_end (ascii "\"\\uF600\"")
      (.one (by decide) (.one (by decide) (.one (by decide) (.one (by decide) (.one (by decide) (.one (by decide)
        (.one (by decide) (.one (by decide) .nil)))))))) (by decide) (by decide) []
    rw [List.append_nil] at e2
    exact ⟨_, out, d, C02_violation_astral.1, e1, e2, e3, C02_violation_astral.2⟩
  · obtain ⟨out, d, e1, e2, e3⟩ := C50_end ([34] ++ infSign ++ [34])
      (.one (by decide) (.three2 (by decide) (by decide) (by decide) (.one (by decide) .nil))) (by decide) (by decide) []
    rw [List.append_nil] at e2
    exact ⟨_, out, d, by decide +kernel, e1, e2, e3, by decide +kernel⟩

example (f : Decimal → Bytes) : Printable true f (.obj [([0x61], .str [0xC3, 0xA9, 0x0A])]) ∧ Tripable {} (.obj [([0x61], .str [0xC3, 0xA9, 0x0A])]) ∧
    Spec.Plain (.obj [([0x61], .str [0xC3, 0xA9, 0x0A])]) := by
  refine ⟨?_, ?_, ?_⟩
  · simp only [Printable, PrintableM, StrOk]
    exact ⟨⟨.one (by decide) .nil, .inl trivial⟩, ⟨.two (by decide) (by decide) (.one (by decide) .nil), .inl trivial⟩, trivial⟩
  · simp only [Tripable, TripableM, StrictSorted]
    exact ⟨by decide, ⟨by decide, by decide⟩, trivial⟩
  · simp [Spec.Plain, Spec.PlainM]

end Imt.Props
