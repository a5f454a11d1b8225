import Verif.Lemmas.Trip
import Verif.Props.Parser
/-! # Properties of the text serializer and round trips: C01, C02, C03, C04, C08, C11 -/
namespace Imt.Props
open Imt Parser Spec Ser

/-! ## C01, C02 -/

mutual
theorem tripable_noMin (cfg : Cfg) : (v : JV) → Tripable cfg v → hasMin v = false
  | .undef, _ => by rw [hasMin.eq_def]
  | .null, _ => by rw [hasMin.eq_def]
  | .bool _, _ => by rw [hasMin.eq_def]
  | .num (.uint _), _ => by rw [hasMin.eq_def]
  | .num (.int i), h => by
    rw [Tripable] at h
    rw [hasMin]
    simp only [beq_eq_false_iff_ne, ne_eq]
    omega
  | .num (.dbl _), _ => by rw [hasMin.eq_def]
  | .num (.inf _), _ => by rw [hasMin.eq_def]
  | .num (.prec _ _), _ => by rw [hasMin.eq_def]
  | .str _, _ => by rw [hasMin.eq_def]
  | .arr l, h => by rw [Tripable] at h; rw [hasMin]; exact tripable_noMinL cfg l h
  | .obj l, h => by rw [Tripable] at h; rw [hasMin]; exact tripable_noMinM cfg l h.2
theorem tripable_noMinL (cfg : Cfg) : (l : List JV) → TripableL cfg l → hasMinL l = false
  | [], _ => rfl
  | v :: l, h => by rw [TripableL] at h; rw [hasMinL, tripable_noMin cfg v h.1, tripable_noMinL cfg l h.2]; rfl
theorem tripable_noMinM (cfg : Cfg) : (l : List (Bytes × JV)) → TripableM cfg l → hasMinM l = false
  | [], _ => rfl
  | (k, v) :: l, h => by rw [TripableM] at h; rw [hasMinM, tripable_noMin cfg v h.1, tripable_noMinM cfg l h.2]; rfl
end

/-- C01: for values of the scope, `stringify` succeeds and parsing its UTF-8 text (both byte sources, any text after it
that does not continue a number) gives the value back and leaves exactly what follows. Depth, size and strings are
arbitrary. `Reads` says what happens to precise numbers and to nonnegative signed integers. Missing: floating point
numbers, the strings "∞" and "-∞" and the most negative integer (violations below). -/
theorem C01_round_trip_partial (f : Decimal → Bytes) (cfg : Cfg) (htl : ∀ n < 2 ^ 64, cfg.tooLong n = false) (v : JV)
    (h : Printable true f v) (ht : Tripable cfg v) (rest : Bytes) (hr : StopNum rest) :
    ∃ t v', stringify true f v = .ok t ∧ parse cfg (t ++ rest) = .ok (v', rest) ∧ Reads cfg v v' := by
  obtain ⟨v', h1, h2⟩ := Trip.trip true f cfg htl v h ht [] rest ws_nil hr
  exact ⟨_, v', by rw [stringify, tripable_noMin cfg v ht]; rfl, h1, h2⟩

/-- C01 for trees without precise numbers: the very same value. -/
theorem C01_round_trip_exact_partial (f : Decimal → Bytes) (cfg : Cfg) (htl : ∀ n < 2 ^ 64, cfg.tooLong n = false)
    (hp : cfg.precise = false) (v : JV) (h : Printable true f v) (ht : Tripable cfg v) (hpl : Plain v) :
    ∃ t, stringify true f v = .ok t ∧ parse cfg t = .ok (v, []) ∧ fromString cfg.tooLong t = .ok v := by
  have key : ∀ c : Cfg, c.precise = false → c.tooLong = cfg.tooLong → Tripable c v →
      parse c (ser true f v) = .ok (v, []) := by
    intro c hc htl' htr
    obtain ⟨t, v', h1, h2, h3⟩ := C01_round_trip_partial f c (by rw [htl']; exact htl) v h htr [] (by intro _ _ h; cases h)
    rw [stringify, tripable_noMin c v htr] at h1
    cases h1
    rw [Trip.reads_eq c hc h3 hpl, List.append_nil] at h2
    exact h2
  refine ⟨_, by rw [stringify, tripable_noMin cfg v ht]; rfl, key cfg hp rfl ht, ?_⟩
  unfold fromString
  have hp' := tripable_plain cfg { tooLong := cfg.tooLong } v hpl ht
  rw [key { tooLong := cfg.tooLong } rfl rfl hp']
  rfl
where
  tripable_plain (c c' : Cfg) (v : JV) (hpl : Plain v) (h : Tripable c v) : Tripable c' v := go c c' v hpl h
  go (c c' : Cfg) : (v : JV) → Plain v → Tripable c v → Tripable c' v
    | .undef, _, _ => by rw [Tripable.eq_def]; trivial
    | .null, _, _ => by rw [Tripable.eq_def]; trivial
    | .bool _, _, _ => by rw [Tripable.eq_def]; trivial
    | .num (.uint _), _, h => by rw [Tripable] at h ⊢; exact h
    | .num (.int _), _, h => by rw [Tripable] at h ⊢; exact h
    | .num (.dbl _), _, h => by rw [Tripable] at h ⊢; exact h
    | .num (.inf _), _, _ => by rw [Tripable.eq_def]; trivial
    | .num (.prec _ _), h, _ => by rw [Plain] at h; exact h.elim
    | .str _, _, h => by rw [Tripable] at h ⊢; exact h
    | .arr l, hp, h => by rw [Tripable] at h ⊢; rw [Plain] at hp; exact goL c c' l hp h
    | .obj l, hp, h => by rw [Tripable] at h ⊢; rw [Plain] at hp; exact ⟨h.1, goM c c' l hp h.2⟩
  goL (c c' : Cfg) : (l : List JV) → PlainL l → TripableL c l → TripableL c' l
    | [], _, _ => by rw [TripableL]; trivial
    | v :: l, hp, h => by rw [TripableL] at h ⊢; rw [PlainL] at hp; exact ⟨go c c' v hp.1 h.1, goL c c' l hp.2 h.2⟩
  goM (c c' : Cfg) : (l : List (Bytes × JV)) → PlainM l → TripableM c l → TripableM c' l
    | [], _, _ => by rw [TripableM]; trivial
    | (_, v) :: l, hp, h => by rw [TripableM] at h ⊢; rw [PlainM] at hp; exact ⟨go c c' v hp.1 h.1, goM c c' l hp.2 h.2⟩

/-- Example for C01: a nested value meeting all hypotheses. -/
def exTree : JV := .obj [(ascii "a", .arr [.num (.uint (2 ^ 64 - 1)), .num (.int (-5)), .null, .bool true]),
  (ascii "\n\"", .str [0xF0, 0x9F, 0x98, 0x80, 1])]

theorem ascii_wf (s : Bytes) (h : ∀ b ∈ s, b < 128) : WellFormedUtf8 s := by
  induction s with
  | nil => exact .nil
  | cons a s ih =>
    have := h a (by simp)
    exact .one ⟨by omega, by omega⟩ (ih fun b hb => h b (by simp [hb]))

example (f : Decimal → Bytes) : Printable true f (.arr [exTree]) ∧ Plain (.arr [exTree]) := by
  have h1 := ascii_wf (ascii "a") (by decide)
  have h2 := ascii_wf (ascii "\n\"") (by decide)
  have h3 : WellFormedUtf8 [0xF0, 0x9F, 0x98, 0x80, 1] :=
    .four1 (by decide) (by decide) (by decide) (.one (by decide) .nil)
  constructor
  · simp only [exTree, Printable, PrintableL, PrintableM, StrOk, and_true, true_or, true_and]
    exact ⟨h1, h2, h3⟩
  · simp [exTree, Plain, PlainL, PlainM]
example : Tripable {} (.obj [(ascii "\n\"", .str [0x31]), (ascii "a", .num (.int (-5)))]) := by
  simp [Tripable, TripableM, StrictSorted, infSign]
  decide
example : stringify true (fun _ => []) exTree = .ok (ascii "{\"a\":[18446744073709551615,-5,null,true],\"\\n\\\"\":\"" ++
    [0xF0, 0x9F, 0x98, 0x80] ++ ascii "\\u0001\"}") := by decide +kernel

/-- C01 does not hold for the string "∞": it comes back as a number. -/
theorem C01_violation_infinity :
    (match stringify true (fun _ => []) (.str infSign) with | .ok t => parse {} t | _ => .err) = .ok (.num (.inf false), []) := by
  decide +kernel
/-- C01 does not hold for the most negative integer: printing it overflows (undefined behaviour, serializer.h:237,248). -/
theorem C01_violation_min (f : Decimal → Bytes) : stringify true f (.arr [.num (.int (-2 ^ 63))]) = .ub := by
  have h : hasMin (.arr [.num (.int (-2 ^ 63))]) = true := by decide +kernel
  rw [stringify, h]; rfl

/-- A value occurs in a tree. -/
inductive Occurs (x : JV) : JV → Prop
  | here : Occurs x x
  | item {l : List JV} {v : JV} (h : v ∈ l) (o : Occurs x v) : Occurs x (.arr l)
  | value {l : List (Bytes × JV)} {k : Bytes} {v : JV} (h : (k, v) ∈ l) (o : Occurs x v) : Occurs x (.obj l)

mutual
theorem hasMin_occurs : (v : JV) → (hasMin v = true ↔ Occurs (.num (.int (-2 ^ 63))) v)
  | .undef => ⟨fun h => (by cases h), fun h => (by cases h)⟩
  | .null => ⟨fun h => (by cases h), fun h => (by cases h)⟩
  | .bool _ => ⟨fun h => (by cases h), fun h => (by cases h)⟩
  | .num (.uint _) => ⟨fun h => (by cases h), fun h => (by cases h)⟩
  | .num (.int i) => by
    rw [hasMin, beq_iff_eq]
    exact ⟨fun h => (by subst h; exact .here), fun h => (by cases h; rfl)⟩
  | .num (.dbl _) => ⟨fun h => (by cases h), fun h => (by cases h)⟩
  | .num (.inf _) => ⟨fun h => (by cases h), fun h => (by cases h)⟩
  | .num (.prec _ _) => ⟨fun h => (by cases h), fun h => (by cases h)⟩
  | .str _ => ⟨fun h => (by cases h), fun h => (by cases h)⟩
  | .arr l => by
    rw [hasMin, hasMinL_occurs l]
    exact ⟨fun ⟨v, h1, h2⟩ => .item h1 h2, fun h => by cases h with | item h1 h2 => exact ⟨_, h1, h2⟩⟩
  | .obj l => by
    rw [hasMin, hasMinM_occurs l]
    exact ⟨fun ⟨k, v, h1, h2⟩ => .value h1 h2, fun h => by cases h with | value h1 h2 => exact ⟨_, _, h1, h2⟩⟩
theorem hasMinL_occurs : (l : List JV) → (hasMinL l = true ↔ ∃ v, v ∈ l ∧ Occurs (.num (.int (-2 ^ 63))) v)
  | [] => ⟨fun h => (by cases h), fun ⟨_, h, _⟩ => (by cases h)⟩
  | v :: l => by
    rw [hasMinL, Bool.or_eq_true, hasMin_occurs v, hasMinL_occurs l]
    simp
theorem hasMinM_occurs : (l : List (Bytes × JV)) → (hasMinM l = true ↔ ∃ k v, (k, v) ∈ l ∧ Occurs (.num (.int (-2 ^ 63))) v)
  | [] => ⟨fun h => (by cases h), fun ⟨_, _, h, _⟩ => (by cases h)⟩
  | (k, v) :: l => by
    rw [hasMinM, Bool.or_eq_true, hasMin_occurs v, hasMinM_occurs l]
    constructor
    · rintro (h | ⟨k', w, h1, h2⟩)
      · exact ⟨k, v, List.mem_cons_self, h⟩
      · exact ⟨k', w, List.mem_cons_of_mem _ h1, h2⟩
    · rintro ⟨k', w, h1, h2⟩
      rcases List.mem_cons.1 h1 with h1 | h1
      · cases h1; exact .inl h2
      · exact .inr ⟨k', w, h1, h2⟩
end

/-- **C01, violation**, in general: printing is undefined exactly when the most negative integer occurs anywhere in the tree. -/
theorem C01_violation_min_anywhere (u8 : Bool) (f : Decimal → Bytes) (v : JV) :
    (stringify u8 f v = .ub ↔ Occurs (.num (.int (-2 ^ 63))) v) ∧ (¬ Occurs (.num (.int (-2 ^ 63))) v → ∃ t, stringify u8 f v = .ok t) := by
  rw [← hasMin_occurs]
  unfold stringify
  cases hasMin v <;> simp

/-- C02: the round trip of escaped output for strings (and keys) without characters above U+FFFF. Missing: those
characters (violation below) and what is missing in C01. -/
theorem C02_round_trip_partial (f : Decimal → Bytes) (cfg : Cfg) (htl : ∀ n < 2 ^ 64, cfg.tooLong n = false) (v : JV)
    (h : Printable false f v) (ht : Tripable cfg v) (rest : Bytes) (hr : StopNum rest) :
    ∃ t v', stringify false f v = .ok t ∧ parse cfg (t ++ rest) = .ok (v', rest) ∧ Reads cfg v v' ∧
      (cfg.precise = false → Plain v → v' = v) := by
  obtain ⟨v', h1, h2⟩ := Trip.trip false f cfg htl v h ht [] rest ws_nil hr
  exact ⟨_, v', by rw [stringify, tripable_noMin cfg v ht]; rfl, h1, h2, fun hp hpl => Trip.reads_eq cfg hp h2 hpl⟩

example (f : Decimal → Bytes) : Printable false f (.str [0xC3, 0xA9, 0xE2, 0x82, 0xAC, 0x7F]) := by
  have h : WellFormedUtf8 [0xC3, 0xA9, 0xE2, 0x82, 0xAC, 0x7F] :=
    .two (by decide) (by decide) (.three2 (by decide) (by decide) (by decide) (.one (by decide) .nil))
  rw [Printable]
  exact ⟨h, Or.inr (by decide)⟩

/-- C02 does not hold for characters above U+FFFF: U+1F600 is written as `\uF600` and read back as U+F600. -/
theorem C02_violation_astral :
    stringify false (fun _ => []) (.str [0xF0, 0x9F, 0x98, 0x80]) = .ok (ascii "\"\\uF600\"") ∧
    parse {} (ascii "\"\\uF600\"") = .ok (.str [0xEF, 0x98, 0x80], []) := by decide +kernel

/-! ## C03 -/

mutual
/-- Texts of precise numbers and printed doubles are printable ASCII. -/
def NumsAsc (f : Decimal → Bytes) : JV → Prop
  | .num (.dbl d) => ∀ b ∈ f d, 0x20 ≤ b ∧ b ≤ 0x7F
  | .num (.prec t _) => ∀ b ∈ t, 0x20 ≤ b ∧ b ≤ 0x7F
  | .arr l => NumsAscL f l
  | .obj l => NumsAscM f l
  | _ => True
/-- Items. -/
def NumsAscL (f : Decimal → Bytes) : List JV → Prop
  | [] => True
  | v :: l => NumsAsc f v ∧ NumsAscL f l
/-- Members. -/
def NumsAscM (f : Decimal → Bytes) : List (Bytes × JV) → Prop
  | [] => True
  | (_, v) :: l => NumsAsc f v ∧ NumsAscM f l
end

mutual
theorem asc_ser (f : Decimal → Bytes) : (v : JV) → NumsAsc f v → Asc (ser false f v)
  | .undef, _ => by rw [ser]; exact asc_string _
  | .null, _ => by rw [ser]; unfold Asc; decide
  | .bool true, _ => by rw [ser]; unfold Asc; decide
  | .bool false, _ => by rw [ser]; unfold Asc; decide
  | .num (.uint n), _ => by rw [ser, writeNum]; exact asc_digits (writeUnsigned_spec n).1.2
  | .num (.int i), _ => by rw [ser, writeNum]; exact asc_signed i
  | .num (.dbl d), h => by rw [ser, writeNum]; rw [NumsAsc] at h; exact h
  | .num (.inf _), _ => by rw [ser, writeNum]; exact asc_string _
  | .num (.prec t c), h => by rw [ser, writeNum]; rw [NumsAsc] at h; exact h
  | .str s, _ => by rw [ser]; exact asc_string s
  | .arr l, h => by
    rw [ser]; rw [NumsAsc] at h
    exact Asc.cons (by decide) (Asc.append (asc_serItems f l h) (Asc.cons (by decide) (by intro b hb; simp at hb)))
  | .obj l, h => by
    rw [ser]; rw [NumsAsc] at h
    exact Asc.cons (by decide) (Asc.append (asc_serMembers f l h) (Asc.cons (by decide) (by intro b hb; simp at hb)))
theorem asc_serItems (f : Decimal → Bytes) : (l : List JV) → NumsAscL f l → Asc (serItems false f l)
  | [], _ => by rw [serItems]; intro b hb; simp at hb
  | [v], h => by rw [serItems]; rw [NumsAscL] at h; exact asc_ser f v h.1
  | v :: w :: r, h => by
    rw [serItems]; rw [NumsAscL] at h
    exact Asc.append (asc_ser f v h.1) (Asc.cons (by decide) (asc_serItems f (w :: r) h.2))
theorem asc_serMembers (f : Decimal → Bytes) : (l : List (Bytes × JV)) → NumsAscM f l → Asc (serMembers false f l)
  | [], _ => by rw [serMembers]; intro b hb; simp at hb
  | [(k, v)], h => by
    rw [serMembers]; rw [NumsAscM] at h
    exact Asc.append (asc_string k) (Asc.cons (by decide) (asc_ser f v h.1))
  | (k, v) :: m :: r, h => by
    rw [serMembers]; rw [NumsAscM] at h
    exact Asc.append (asc_string k) (Asc.cons (by decide) (Asc.append (asc_ser f v h.1)
      (Asc.cons (by decide) (asc_serMembers f (m :: r) h.2))))
end

/-- C03: escaped output has only bytes 0x20..0x7F, for every tree; strings and keys are arbitrary byte sequences. -/
theorem C03_ascii (f : Decimal → Bytes) (v : JV) (h : NumsAsc f v) (t : Bytes) (ht : stringify false f v = .ok t) :
    ∀ b ∈ t, 0x20 ≤ b ∧ b ≤ 0x7F := by
  unfold stringify at ht
  split at ht
  · cases ht
  · cases ht; exact asc_ser f v h

example (f : Decimal → Bytes) : NumsAsc f (.arr [.str [0xFF, 0x80, 0x00, 0xF8], .obj [([0xC3], .num (.uint 7))]]) := by
  simp [NumsAsc, NumsAscL, NumsAscM]
example : stringify false (fun _ => []) (.str [0xFF, 0x80, 0x00, 0x22]) = .ok (ascii "\"\\u00FF\\u0000\\\"\"") := by decide +kernel

/-! ## C04 -/

/-- C04: the output is JSON and denotes the value; strings well-formed, in escaped mode without characters above U+FFFF;
precise numbers must be JSON tokens. Missing: the two exceptions, see the violations. -/
theorem C04_grammar_partial (u8 : Bool) (f : Decimal → Bytes) (v : JV) (h : Printable u8 f v) (t : Bytes)
    (ht : stringify u8 f v = .ok t) : ∃ j, JText False t j ∧ Denotes f v j := by
  unfold stringify at ht
  split at ht
  · cases ht
  · cases ht
    obtain ⟨j, h1, h2⟩ := ser_grammar u8 f v h
    have := JText.mk (w := []) (w' := []) ws_nil h1 ws_nil
    exact ⟨j, by simpa using this, h2⟩

/-- No JSON value starts with '+'. -/
theorem jval_head {t : Bytes} {j : SJ} (h : JVal True t j) : t.head? ≠ some 0x2B := by
  cases h with
  | num hw =>
    rename_i t
    unfold NumTok.text
    cases hn : t.neg with
    | true => simp
    | false =>
      obtain ⟨d, r, hd⟩ := List.exists_cons_of_ne_nil hw.int.1.1
      have := hw.int.1.2 d (by rw [hd]; simp)
      unfold IsDig at this
      rw [hd]
      simp only [Bool.false_eq_true, if_false, List.nil_append, List.cons_append, List.head?_cons, ne_eq, Option.some.injEq]
      omega
  | null => decide
  | true => decide
  | false => decide
  | _ => simp

/-- C04 does not hold for precise numbers: the parser accepts `+5` (parser.h:761) and the serializer writes it back,
which is not JSON. -/
theorem C04_violation_precise :
    parse { precise := true } (ascii "+5") = .ok (.num (.prec (ascii "+5") (.unat 5)), []) ∧
    stringify true (fun _ => []) (.num (.prec (ascii "+5") (.unat 5))) = .ok (ascii "+5") ∧
    ¬ ∃ j, JText True (ascii "+5") j := by
  refine ⟨by decide +kernel, by decide +kernel, ?_⟩
  rintro ⟨j, h⟩
  generalize he : ascii "+5" = s at h
  cases h with
  | mk hw hv hw' =>
    rename_i w t w'
    cases w with
    | nil =>
      have hh := jval_head hv
      have hl : t ≠ [] := by
        rintro rfl
        simp only [List.nil_append] at he
        have := hw' 0x2B (by rw [← he]; decide)
        omega
      obtain ⟨a, r, rfl⟩ := List.exists_cons_of_ne_nil hl
      have : a = 0x2B := by
        have := congrArg List.head? he
        simp only [List.nil_append, List.cons_append, List.head?_cons] at this
        exact (Option.some.inj this).symm
      rw [this] at hh
      exact hh rfl
    | cons a w =>
      have ha := hw a (by simp)
      have : a = 0x2B := by
        have := congrArg List.head? he
        simp only [List.cons_append, List.head?_cons] at this
        exact (Option.some.inj this).symm
      omega

/-- C04 does not hold for characters above U+FFFF in escaped mode: the text denotes another string. -/
theorem C04_violation_astral :
    stringify false (fun _ => []) (.str [0xF0, 0x9F, 0x98, 0x80]) = .ok (ascii "\"\\uF600\"") ∧
    JVal True (ascii "\"\\uF600\"") (.str [0xEF, 0x98, 0x80]) := by
  refine ⟨by decide +kernel, ?_⟩
  have h1 : Esc4 (ascii "\\uF600") 0xF600 := escU_esc4 0xF600 (by decide)
  have h2 := StrBody.uni (pairs := True) h1 (by decide) .nil
  exact JVal.str h2

example (f : Decimal → Bytes) : Printable false f (.arr [.num (.prec (ascii "-1.50") .dbl), .undef, .num (.inf true)]) := by
  simp only [Printable, PrintableL, and_true]
  exact ⟨⟨true, [0x31], some [0x35, 0x30], none⟩, ⟨by decide, by decide, by simp⟩, by decide⟩

/-! ## C08 -/

/-- C08: the text of an unsigned integer is its canonical decimal representation and is read back to the same integer. -/
theorem C08_unsigned (u8 : Bool) (f : Decimal → Bytes) (n : Nat) (hn : n < 2 ^ 64) :
    ∃ t, stringify u8 f (.num (.uint n)) = .ok t ∧ Digits1 t ∧ (t.head? = some 48 → t = [48]) ∧ decVal t = n ∧
      ∀ cfg : Cfg, cfg.precise = false → cfg.tooLong n = false → parse cfg t = .ok (.num (.uint n), []) := by
  obtain ⟨h1, h2, h3⟩ := writeUnsigned_spec n
  refine ⟨writeUnsigned n, ?_, h1, h3, h2, ?_⟩
  · have : hasMin (.num (.uint n)) = false := by rw [hasMin.eq_def]
    rw [stringify, this, ser, writeNum]; rfl
  · intro cfg hp htl
    have := C07_unsigned cfg hp [] (writeUnsigned n) [] (Or.inl rfl) h1 (by rw [h2]; exact htl) (by intro _ _ h; cases h) (by rw [h2]; exact hn)
    rw [List.append_nil, List.nil_append, h2] at this
    exact this

/-- C08: signed integers, all but the most negative one: `-` exactly for negatives, then the canonical magnitude. -/
theorem C08_signed_partial (u8 : Bool) (f : Decimal → Bytes) (i : Int) (hi : -2 ^ 63 < i) (hi' : i < 2 ^ 63) :
    ∃ sg ds, stringify u8 f (.num (.int i)) = .ok (sg ++ ds) ∧ sg = (if i < 0 then [0x2D] else []) ∧ Digits1 ds ∧
      (ds.head? = some 48 → ds = [48]) ∧ decVal ds = i.natAbs ∧
      ∀ cfg : Cfg, cfg.precise = false → cfg.tooLong i.natAbs = false →
        parse cfg (sg ++ ds) = .ok (.num (if i < 0 then .int i else .uint i.toNat), []) := by
  obtain ⟨h1, h2, h3⟩ := writeUnsigned_spec i.natAbs
  refine ⟨if i < 0 then [0x2D] else [], writeUnsigned i.natAbs, ?_, rfl, h1, h3, h2, ?_⟩
  · have : hasMin (.num (.int i)) = false := by
      rw [hasMin]; simp only [beq_eq_false_iff_ne, ne_eq]; omega
    rw [stringify, this, ser, writeNum, writeSigned]
    by_cases h : i < 0 <;> simp [h]
  · intro cfg hp htl
    by_cases h : i < 0
    · have := C07_negative cfg hp (writeUnsigned i.natAbs) [] h1 (by rw [h2]; exact htl) (by intro _ _ h; cases h) (by rw [h2]; omega)
      rw [List.append_nil, h2, if_neg (by omega), Trip.natAbs_neg_eq h] at this
      simpa [h] using this
    · have := C07_unsigned cfg hp [] (writeUnsigned i.natAbs) [] (Or.inl rfl) h1 (by rw [h2]; exact htl) (by intro _ _ h; cases h) (by rw [h2]; omega)
      rw [List.append_nil, List.nil_append, h2] at this
      have he : i.natAbs = i.toNat := by omega
      rw [he] at this
      rw [if_neg h, if_neg h, List.nil_append, he]; exact this

/-- C08 does not hold for the most negative integer (`-value` overflows, serializer.h:237). -/
theorem C08_violation_min (u8 : Bool) (f : Decimal → Bytes) : stringify u8 f (.num (.int (-2 ^ 63))) = .ub := by
  have h : hasMin (.num (.int (-2 ^ 63))) = true := by decide +kernel
  rw [stringify, h]; rfl

example : stringify true (fun _ => []) (.num (.int (-9223372036854775807))) = .ok (ascii "-9223372036854775807") := by decide +kernel

/-! ## C11 -/

/-- C11, precise numbers that fit: the cached integer is exact. -/
theorem C11_precise_fits_partial (sg ds : Bytes) (hs : sg = [] ∨ sg = [0x2B] ∨ sg = [0x2D]) (hd : Digits1 ds)
    (hv : decVal ds < if sg = [0x2D] then 2 ^ 63 else 2 ^ 64) :
    numberFromStringRaw (sg ++ ds) false =
      .prec (sg ++ ds) (if sg = [0x2D] then .sint (-(decVal ds : Int)) else .unat (decVal ds)) := by
  rcases hs with rfl | rfl | rfl
  · exact Trip.raw_nat ds hd hv
  · have h1 := Trip.raw_nat ds hd hv
    unfold numberFromStringRaw
    simp only [Bool.false_eq_true, if_false, List.singleton_append, List.head?_cons, List.drop_succ_cons, List.drop_zero]
    rw [if_pos (by decide), Trip.rawAcc_exact _ hd.2 0 (by rw [← decVal_eq]; exact hv), ← decVal_eq]
    rfl
  · exact Trip.raw_neg ds hd hv

/-- C11, negative numbers: magnitudes from 2^63 below 2^64 are not wrapped but become floating point. -/
theorem C11_precise_negative_partial (ds : Bytes) (hd : Digits1 ds) (h1 : 2 ^ 63 ≤ decVal ds) (h2 : decVal ds < 2 ^ 64) :
    numberFromStringRaw (0x2D :: ds) false = .prec (0x2D :: ds) .dbl := by
  unfold numberFromStringRaw
  simp only [Bool.false_eq_true, if_false, List.head?_cons, beq_self_eq_true, Bool.true_or, if_true, List.drop_succ_cons,
    List.drop_zero]
  rw [Trip.rawAcc_exact _ hd.2 0 (by rw [← decVal_eq]; omega), ← decVal_eq]
  dsimp only
  rw [if_pos (by omega)]

/-- C11, numeric strings: `getUInt`/`getInt` of a string parse it (stringValue.cpp:37-70); a numeral that fits is exact,
whatever follows it. -/
theorem C11_string_fits (tooLong : Nat → Bool) (sg ds rest : Bytes) (hs : sg = [] ∨ sg = [0x2B]) (hd : Digits1 ds)
    (hl : tooLong (decVal ds) = false) (hr : StopNum rest) (hv : decVal ds < 2 ^ 64) :
    fromString tooLong (sg ++ (ds ++ rest)) = .ok (.num (.uint (decVal ds))) := by
  unfold fromString
  rw [C07_unsigned { tooLong := tooLong } rfl sg ds rest hs hd hl hr hv]
  rfl

/-- C11 does not hold for precise numbers: 3*10^19 is above 2^64, the overflow test `newval < acclm`
(stringValue.cpp:297) does not notice and the integer view is the wrapped 11553255926290448384. -/
theorem C11_violation_wraps :
    decVal (ascii "30000000000000000000") ≥ 2 ^ 64 ∧
    numberFromStringRaw (ascii "30000000000000000000") false = .prec (ascii "30000000000000000000") (.unat 11553255926290448384) := by
  decide +kernel

example : Digits1 (ascii "18446744073709551615") ∧ decVal (ascii "18446744073709551615") < 2 ^ 64 := by decide +kernel

end Imt.Props
