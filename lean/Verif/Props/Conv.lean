import Verif.Model.Conv
import Verif.Lemmas.StrLen
import Verif.Props.Serializer
import Mathlib.Data.Rat.Floor
/-!
# Scalar getters (C100, C101, C102, C103)
-/
namespace Imt.Props
open Imt Imt.Parser Imt.Conv Imt.Spec

/-! ## C100 -/

/-- The value that answers a numeric getter: strings are read as JSON text, again and again; a text that is no JSON leads to
undefined. Independent of recursion bounds. -/
inductive Answers (fp : FP) : JV → JV → Prop where
  | here {v} : (∀ s, v ≠ .str s) → Answers fp v v
  | text {s v w} : fromString fp.tooLong s = .ok v → Answers fp v w → Answers fp (.str s) w
  | bad {s} : fromString fp.tooLong s = .err → Answers fp (.str s) .undef

theorem fromString_str_len {tl : Nat → Bool} {s t : Bytes} (h : fromString tl s = .ok (.str t)) : t.length + 2 ≤ s.length := by
  unfold fromString at h
  obtain ⟨⟨v, r⟩, h1, h2⟩ := bind_ok_inv h
  cases h2
  exact StrLen.parse_str_len _ rfl s t r h1

/-- The chain of texts ends: every value has exactly one answering value. -/
theorem C100_answers (fp : FP) (v : JV) : ∃ w, Answers fp v w ∧ ∀ w', Answers fp v w' → w' = w := by
  have key : ∀ n, ∀ v, depth v ≤ n → ∃ w, Answers fp v w ∧ ∀ w', Answers fp v w' → w' = w := by
    intro n
    induction n with
    | zero => intro v h; cases v <;> simp [depth] at h
    | succ n ih =>
      intro v h
      by_cases hv : ∃ s, v = .str s
      · obtain ⟨s, rfl⟩ := hv
        rcases C06_fromString fp.tooLong s with he | ⟨v', hv'⟩
        · refine ⟨.undef, .bad he, ?_⟩
          intro w' hw
          cases hw with
          | here hh => exact absurd rfl (hh s)
          | text h1 _ => rw [he] at h1; cases h1
          | bad _ => rfl
        · have hd : depth v' ≤ n := by
            cases v' with
            | str t => have := fromString_str_len hv'; simp only [depth] at h ⊢; omega
            | _ => simp only [depth] at h ⊢; omega
          obtain ⟨w, h1, h2⟩ := ih v' hd
          refine ⟨w, .text hv' h1, ?_⟩
          intro w' hw
          cases hw with
          | here hh => exact absurd rfl (hh s)
          | text h3 h4 => rw [hv'] at h3; cases h3; exact h2 _ h4
          | bad h3 => rw [hv'] at h3; cases h3
      · refine ⟨v, .here (fun s e => hv ⟨s, e⟩), ?_⟩
        intro w' hw
        cases hw with
        | here _ => rfl
        | text _ _ => exact absurd ⟨_, rfl⟩ hv
        | bad _ => exact absurd ⟨_, rfl⟩ hv
  exact key _ v (le_refl _)

theorem getIntF_answers {fp : FP} {v w : JV} (h : Answers fp v w) : ∀ f, depth v ≤ f → ∃ g, getIntF fp f v = getIntF fp (g + 1) w := by
  induction h with
  | here _ =>
    intro f hf
    cases f with
    | zero => rename_i v _; cases v <;> simp [depth] at hf
    | succ f => exact ⟨f, rfl⟩
  | @text s v w h1 _ ih =>
    intro f hf
    cases f with
    | zero => simp [depth] at hf
    | succ f =>
      obtain ⟨g, hg⟩ := ih f (by
        cases v with
        | str t => have := fromString_str_len h1; simp only [depth] at hf ⊢; omega
        | _ => simp only [depth] at hf ⊢; omega)
      refine ⟨g, ?_⟩
      rw [getIntF]
      simp only [h1]
      exact hg
  | @bad s h1 =>
    intro f hf
    cases f with
    | zero => simp [depth] at hf
    | succ f =>
      refine ⟨0, ?_⟩
      rw [getIntF]
      simp only [h1]
      rfl

theorem getUIntF_answers {fp : FP} {v w : JV} (h : Answers fp v w) : ∀ f, depth v ≤ f → ∃ g, getUIntF fp f v = getUIntF fp (g + 1) w := by
  induction h with
  | here _ =>
    intro f hf
    cases f with
    | zero => rename_i v _; cases v <;> simp [depth] at hf
    | succ f => exact ⟨f, rfl⟩
  | @text s v w h1 _ ih =>
    intro f hf
    cases f with
    | zero => simp [depth] at hf
    | succ f =>
      obtain ⟨g, hg⟩ := ih f (by
        cases v with
        | str t => have := fromString_str_len h1; simp only [depth] at hf ⊢; omega
        | _ => simp only [depth] at hf ⊢; omega)
      refine ⟨g, ?_⟩
      rw [getUIntF]
      simp only [h1]
      exact hg
  | @bad s h1 =>
    intro f hf
    cases f with
    | zero => simp [depth] at hf
    | succ f =>
      refine ⟨0, ?_⟩
      rw [getUIntF]
      simp only [h1]
      rfl

theorem answers_not_str {fp : FP} {v w : JV} (h : Answers fp v w) : ∀ s, w ≠ .str s := by
  induction h with
  | here h => exact h
  | text _ _ ih => exact ih
  | bad _ => intro s; simp

/-- C100: what the getters return, for every value: the answering value decides. Numbers are converted by their class, `true`
is one, everything else is zero. -/
theorem C100_getters (fp : FP) (v w : JV) (h : Answers fp v w) :
    (∀ n, w = .num n → getInt fp v = numInt fp n ∧ getUInt fp v = numUInt fp n) ∧
    (w = .bool true → getInt fp v = .ok 1 ∧ getUInt fp v = .ok 1) ∧
    ((∀ n, w ≠ .num n) → w ≠ .bool true → getInt fp v = .ok 0 ∧ getUInt fp v = .ok 0) := by
  obtain ⟨g, hg⟩ := getIntF_answers h _ (le_refl _)
  obtain ⟨g', hg'⟩ := getUIntF_answers h _ (le_refl _)
  have hs := answers_not_str h
  unfold getInt getUInt
  rw [hg, hg']
  cases w with
  | num n => simp [getIntF, getUIntF]
  | bool b => cases b <;> simp [getIntF, getUIntF]
  | str s => exact absurd rfl (hs s)
  | undef | null | arr | obj => simp [getIntF, getUIntF]

/-- C100: the getters terminate and never throw or abort; undefined behaviour is possible only when the answering value is
a number whose conversion is undefined. -/
theorem C100_total (fp : FP) (v : JV) :
    ((∃ i, getInt fp v = .ok i) ∨ (getInt fp v = .ub ∧ ∃ n, Answers fp v (.num n) ∧ numInt fp n = .ub)) ∧
    ((∃ i, getUInt fp v = .ok i) ∨ (getUInt fp v = .ub ∧ ∃ n, Answers fp v (.num n) ∧ numUInt fp n = .ub)) := by
  obtain ⟨w, hw, -⟩ := C100_answers fp v
  obtain ⟨h1, h2, h3⟩ := C100_getters fp v w hw
  have d1 : ∀ d, (∃ i, dblToInt d = .ok i) ∨ dblToInt d = .ub := by
    intro d
    cases d with
    | fin q => rw [dblToInt]; split; exacts [Or.inl ⟨_, rfl⟩, Or.inr rfl]
    | inf | nan => exact Or.inr rfl
  have d2 : ∀ d, (∃ i, dblToUInt d = .ok i) ∨ dblToUInt d = .ub := by
    intro d
    cases d with
    | fin q => rw [dblToUInt]; split; exacts [Or.inl ⟨_, rfl⟩, Or.inr rfl]
    | inf | nan => exact Or.inr rfl
  by_cases hn : ∃ n, w = .num n
  · obtain ⟨n, rfl⟩ := hn
    obtain ⟨e1, e2⟩ := h1 n rfl
    rw [e1, e2]
    have p1 : (∃ i, numInt fp n = .ok i) ∨ numInt fp n = .ub := by
      cases n with
      | uint | int => exact Or.inl ⟨_, rfl⟩
      | dbl => exact d1 _
      | inf b => exact d1 (.inf b)
      | prec t c => cases c with
        | dbl => exact d1 _
        | sint | unat => exact Or.inl ⟨_, rfl⟩
    have p2 : (∃ i, numUInt fp n = .ok i) ∨ numUInt fp n = .ub := by
      cases n with
      | uint | int => exact Or.inl ⟨_, rfl⟩
      | dbl => exact d2 _
      | inf b => exact d2 (.inf b)
      | prec t c => cases c with
        | dbl => exact d2 _
        | sint | unat => exact Or.inl ⟨_, rfl⟩
    exact ⟨p1.imp_right (fun h => ⟨h, n, hw, h⟩), p2.imp_right (fun h => ⟨h, n, hw, h⟩)⟩
  · by_cases ht : w = .bool true
    · obtain ⟨e1, e2⟩ := h2 ht
      exact ⟨Or.inl ⟨_, e1⟩, Or.inl ⟨_, e2⟩⟩
    · obtain ⟨e1, e2⟩ := h3 (fun n e => hn ⟨n, e⟩) ht
      exact ⟨Or.inl ⟨_, e1⟩, Or.inl ⟨_, e2⟩⟩

/-- The integer a number of an integer class stores. -/
def storedInt : JNum → Option Int
  | .uint n => some n
  | .int i => some i
  | .prec _ (.sint i) => some i
  | .prec _ (.unat n) => some n
  | _ => none

/-- The C++ classes hold 64-bit integers. -/
def Fits64 : JNum → Prop
  | .uint n => n < 2 ^ 64
  | .int i => -2 ^ 63 ≤ i ∧ i < 2 ^ 63
  | .prec _ (.sint i) => -2 ^ 63 ≤ i ∧ i < 2 ^ 63
  | .prec _ (.unat n) => n < 2 ^ 64
  | _ => True

theorem wrapS_spec (n : Nat) (h : n < 2 ^ 64) : (n < 2 ^ 63 → wrapS n = n) ∧ (2 ^ 63 ≤ n → wrapS n = n - 2 ^ 64) := by
  unfold wrapS
  rw [Nat.mod_eq_of_lt h]
  constructor
  · intro h; rw [if_pos h]
  · intro h; rw [if_neg (by omega)]

/-- C100: an integer number is returned exactly by the getter whose type can hold it. -/
theorem C100_integers (fp : FP) (n : JNum) (i : Int) (hi : storedInt n = some i) (hf : Fits64 n) :
    (-2 ^ 63 ≤ i → i < 2 ^ 63 → getInt fp (.num n) = .ok i) ∧
    (0 ≤ i → i < 2 ^ 64 → getUInt fp (.num n) = .ok i.toNat) := by
  obtain ⟨h1, -, -⟩ := C100_getters fp (.num n) (.num n) (.here (by simp))
  obtain ⟨e1, e2⟩ := h1 n rfl
  rw [e1, e2]
  have main : ∀ m : Nat, m < 2 ^ 64 → (m : Int) < 2 ^ 63 → wrapS m = m := fun m hm hh => (wrapS_spec m hm).1 (by omega)
  cases n with
  | uint m =>
    cases hi
    exact ⟨fun _ h => by rw [numInt, main m hf h], fun _ _ => by rw [numUInt]; simp⟩
  | int j =>
    cases hi
    exact ⟨fun _ _ => rfl, fun h0 h1 => by rw [numUInt, Int.emod_eq_of_lt h0 h1]⟩
  | dbl => cases hi
  | inf => cases hi
  | prec t c =>
    cases c with
    | dbl => cases hi
    | sint j =>
      cases hi
      exact ⟨fun _ _ => rfl, fun h0 h1 => by rw [numUInt, Int.emod_eq_of_lt h0 h1]⟩
    | unat m =>
      cases hi
      exact ⟨fun _ h => by rw [numInt, main m hf h], fun _ _ => by rw [numUInt]; simp⟩

example : storedInt (.uint (2 ^ 63)) = some (2 ^ 63) ∧ Fits64 (.uint (2 ^ 63)) := ⟨rfl, by unfold Fits64; decide⟩

/-- C100: an integer is never lost by the constructor and the getter of its own type. -/
theorem C100_own_type (fp : FP) : (∀ i : Int, -2 ^ 63 ≤ i → i < 2 ^ 63 → getInt fp (valueOfInt i) = .ok i) ∧
    ∀ n : Nat, n < 2 ^ 64 → getUInt fp (valueOfUInt n) = .ok n := by
  constructor
  · intro i h0 h1
    unfold valueOfInt
    split
    · next h => subst h; rfl
    · exact (C100_integers fp (.int i) i rfl ⟨h0, h1⟩).1 h0 h1
  · intro n h
    have := (C100_integers fp (.uint n) n rfl h).2 (by omega) (by omega)
    simpa [valueOfUInt] using this

/-- C100 does not hold across the types: a stored integer that the type of the getter cannot hold is wrapped modulo 2^64
without notice (basicValues.h:99-100). Every unsigned number from 2^63 up reads as a negative integer, every negative number
as a huge unsigned one. -/
theorem C100_violation_wraps (fp : FP) :
    (∀ n : Nat, 2 ^ 63 ≤ n → n < 2 ^ 64 → getInt fp (.num (.uint n)) = .ok (n - 2 ^ 64)) ∧
    (∀ i : Int, -2 ^ 63 ≤ i → i < 0 → getUInt fp (.num (.int i)) = .ok (i + 2 ^ 64).toNat) := by
  constructor
  · intro n h0 h1
    obtain ⟨e, -⟩ := (C100_getters fp (.num (.uint n)) _ (.here (by simp))).1 _ rfl
    rw [e, numInt, (wrapS_spec n h1).2 h0]
  · intro i h0 h1
    obtain ⟨-, e⟩ := (C100_getters fp (.num (.int i)) _ (.here (by simp))).1 _ rfl
    rw [e, numUInt]
    congr 2
    omega

/-- `i` is the integer part of `q`: nearest integer towards zero. -/
def IntPart (q : Rat) (i : Int) : Prop := (0 ≤ q → (i : Rat) ≤ q ∧ q < i + 1) ∧ (q ≤ 0 → (i : Rat) - 1 < q ∧ q ≤ i)

theorem tdiv_intPart (q : Rat) : IntPart q (Int.tdiv q.num q.den) := by
  have pos : ∀ q : Rat, 0 ≤ q → ((Int.tdiv q.num q.den : Int) : Rat) ≤ q ∧ q < (Int.tdiv q.num q.den : Int) + 1 := by
    intro q h
    have hn : 0 ≤ q.num := Rat.num_nonneg.2 h
    rw [Int.tdiv_eq_ediv_of_nonneg hn, ← Rat.floor_def]
    exact ⟨Int.floor_le q, Int.lt_floor_add_one q⟩
  refine ⟨pos q, ?_⟩
  intro h
  have := pos (-q) (by linarith)
  rw [Rat.num_neg_eq_neg_num, Rat.den_neg_eq_den, Int.neg_tdiv] at this
  push_cast at this
  constructor <;> linarith [this.1, this.2]

theorem intPart_unique {q : Rat} {i j : Int} (hi : IntPart q i) (hj : IntPart q j) : i = j := by
  rcases le_total 0 q with h | h
  · have a := hi.1 h; have b := hj.1 h
    have h1 : (i : Rat) < j + 1 := lt_of_le_of_lt a.1 b.2
    have h2 : (j : Rat) < i + 1 := lt_of_le_of_lt b.1 a.2
    have h1' : i < j + 1 := by exact_mod_cast h1
    have h2' : j < i + 1 := by exact_mod_cast h2
    omega
  · have a := hi.2 h; have b := hj.2 h
    have h1 : (i : Rat) - 1 < j := lt_of_lt_of_le a.1 b.2
    have h2 : (j : Rat) - 1 < i := lt_of_lt_of_le b.1 a.2
    have h1' : i - 1 < j := by exact_mod_cast h1
    have h2' : j - 1 < i := by exact_mod_cast h2
    omega

/-- C100: a floating point number gives its integer part ("only the integer part of the number", value.h:264-265) when that
fits the result type. -/
theorem C100_double (fp : FP) (d : Decimal) (q : Rat) (i : Int) (hq : fp.rnd d = .fin q) (hi : IntPart q i) :
    (-2 ^ 63 ≤ i → i < 2 ^ 63 → getInt fp (.num (.dbl d)) = .ok i) ∧
    (0 ≤ i → i < 2 ^ 64 → getUInt fp (.num (.dbl d)) = .ok i.toNat) := by
  obtain ⟨e1, e2⟩ := (C100_getters fp (.num (.dbl d)) _ (.here (by simp))).1 _ rfl
  have he := intPart_unique (tdiv_intPart q) hi
  rw [e1, e2, numInt, numUInt, hq, dblToInt, dblToUInt, he]
  exact ⟨fun a b => if_pos ⟨a, b⟩, fun a b => if_pos ⟨a, b⟩⟩

example : IntPart (-5 / 2) (-2) := ⟨fun h => absurd h (by norm_num), fun _ => by norm_num⟩

/-- C100 does not hold for large floating point numbers: the conversion is undefined behaviour for every number whose integer
part does not fit (and for infinities), and nothing in the library prevents it. -/
theorem C100_violation_undefined (fp : FP) (d : Decimal) (q : Rat) (i : Int) (hq : fp.rnd d = .fin q) (hi : IntPart q i) :
    (¬ (-2 ^ 63 ≤ i ∧ i < 2 ^ 63) → getInt fp (.num (.dbl d)) = .ub) ∧
    (¬ (0 ≤ i ∧ i < 2 ^ 64) → getUInt fp (.num (.dbl d)) = .ub) := by
  obtain ⟨e1, e2⟩ := (C100_getters fp (.num (.dbl d)) _ (.here (by simp))).1 _ rfl
  have he := intPart_unique (tdiv_intPart q) hi
  rw [e1, e2, numInt, numUInt, hq, dblToInt, dblToUInt, he]
  exact ⟨fun a => if_neg a, fun a => if_neg a⟩

/-- C100 does not hold: the JSON texts `1e30` and `-1` lead to undefined behaviour and to 2^64-1 in `getUInt`, whatever the
rounding of large numbers. -/
theorem C100_violation_from_text (fp : FP) (q : Rat) (h : fp.rnd ⟨false, 1, 0, 0, 30⟩ = .fin q) (hq : 2 ^ 64 ≤ q) :
    getUInt fp (.str (ascii "1e30")) = .ub ∧ getInt fp (.str (ascii "1e30")) = .ub ∧
    getUInt fp (.str (ascii "-1")) = .ok (2 ^ 64 - 1) := by
  have hp : fromString fp.tooLong (ascii "1e30") = .ok (.num (.dbl ⟨false, 1, 0, 0, 30⟩)) := rfl
  have hm : fromString fp.tooLong (ascii "-1") = .ok (.num (.int (-1))) := rfl
  obtain ⟨e1, e2⟩ := (C100_getters fp _ _ (.text hp (.here (by simp)))).1 _ rfl
  obtain ⟨-, e3⟩ := (C100_getters fp _ _ (.text hm (.here (by simp)))).1 _ rfl
  have hi := tdiv_intPart q
  generalize ht : Int.tdiv q.num q.den = i at hi
  have hlt : (2 : Rat) ^ 64 < i + 1 := lt_of_le_of_lt hq (hi.1 (by linarith [show (0 : Rat) < 2 ^ 64 by norm_num])).2
  have hlt' : (2 : Int) ^ 64 < i + 1 := by exact_mod_cast hlt
  refine ⟨?_, ?_, ?_⟩
  · rw [e2, numUInt, h, dblToUInt, ht]; exact if_neg (by omega)
  · rw [e1, numInt, h, dblToInt, ht]; exact if_neg (by omega)
  · rw [e3]; rfl

example : ∃ fp : FP, fp.rnd ⟨false, 1, 0, 0, 30⟩ = .fin (10 ^ 30) ∧ (2 : Rat) ^ 64 ≤ 10 ^ 30 :=
  ⟨⟨fun _ => .fin (10 ^ 30), fun _ => .nan, fun _ => false⟩, rfl, by norm_num⟩

/-- C100: a decimal numeral stored as string is converted exactly: unsigned ones by `getUInt`, negative ones by `getInt`. -/
theorem C100_numeral_strings (fp : FP) (ds : Bytes) (hd : Digits1 ds) (hl : fp.tooLong (decVal ds) = false) :
    (decVal ds < 2 ^ 64 → getUInt fp (.str ds) = .ok (decVal ds)) ∧
    (decVal ds < 2 ^ 63 → getInt fp (.str ds) = .ok (decVal ds)) ∧
    (decVal ds < 2 ^ 63 → getInt fp (.str (0x2D :: ds)) = .ok (-(decVal ds : Int))) := by
  have hp : decVal ds < 2 ^ 64 → fromString fp.tooLong ds = .ok (.num (.uint (decVal ds))) := by
    intro hv
    have := C11_string_fits fp.tooLong [] ds [] (Or.inl rfl) hd hl (by intro _ _ h; cases h) hv
    simpa using this
  refine ⟨fun h => ?_, fun h => ?_, fun h => ?_⟩
  · obtain ⟨-, e⟩ := (C100_getters fp _ _ (.text (hp h) (.here (by simp)))).1 _ rfl
    rw [e, numUInt]
  · obtain ⟨e, -⟩ := (C100_getters fp _ _ (.text (hp (by omega)) (.here (by simp)))).1 _ rfl
    rw [e, numInt, (wrapS_spec _ (by omega)).1 h]
  · have hn : fromString fp.tooLong (0x2D :: ds) =
        .ok (.num (if decVal ds = 0 then .uint 0 else .int (-(decVal ds : Int)))) := by
      unfold fromString
      have := C07_negative { tooLong := fp.tooLong } rfl ds [] hd hl (by intro _ _ h; cases h) h
      rw [List.append_nil] at this
      rw [this]; rfl
    obtain ⟨e, -⟩ := (C100_getters fp _ _ (.text hn (.here (by simp)))).1 _ rfl
    rw [e]
    split
    · next h0 => rw [h0]; rfl
    · rfl

example : Digits1 (ascii "18446744073709551615") ∧ decVal (ascii "18446744073709551615") < 2 ^ 64 := by decide +kernel

/-- C100 does not hold as documented: "Automatic conversion is limited to numbers only … The function returns zero for other
types" (value.h:262-266), but booleans and strings are converted, and a string is even read as a JSON text that may hold
another string; what follows the number is ignored. -/
theorem C100_violation_other_types (fp : FP) (hl : ∀ n, fp.tooLong n = false) :
    getInt fp (.bool true) = .ok 1 ∧ getInt fp (.str (ascii "12 apples")) = .ok 12 ∧
    getInt fp (.str (ascii "\"\\\"7\\\"\"")) = .ok 7 := by
  obtain ⟨r, s, t⟩ := fp
  have : t = fun _ => false := funext hl
  subst this
  have h1 : fromString (fun _ => false) (ascii "12 apples") = .ok (.num (.uint 12)) := by decide +kernel
  have h2 : fromString (fun _ => false) (ascii "\"\\\"7\\\"\"") = .ok (.str (ascii "\"7\"")) := by decide +kernel
  have h3 : fromString (fun _ => false) (ascii "\"7\"") = .ok (.str (ascii "7")) := by decide +kernel
  have h4 : fromString (fun _ => false) (ascii "7") = .ok (.num (.uint 7)) := by decide +kernel
  refine ⟨rfl, ?_, ?_⟩
  · obtain ⟨e, -⟩ := (C100_getters ⟨r, s, fun _ => false⟩ _ _ (.text h1 (.here (by simp)))).1 _ rfl
    rw [e]; rfl
  · obtain ⟨e, -⟩ := (C100_getters ⟨r, s, fun _ => false⟩ _ _ (.text h2 (.text h3 (.text h4 (.here (by simp)))))).1 _ rfl
    rw [e]; rfl

/-! ## C101 -/

/-- The truth value documented for `getBool` (value.h:303-310). -/
def docTruth : Cls → Bool
  | .undef => false
  | .null => false
  | .bool b => b
  | .zero => false
  | .number d => decide (d ≠ .fin 0)
  | .precise _ d => decide (d ≠ .fin 0)
  | .emptyStr => false
  | .string s => decide (s ≠ [])
  | .emptyArr => false
  | .array n => decide (n ≠ 0)
  | .emptyObj => false
  | .object n => decide (n ≠ 0)

/-- C101: exactly when `getBool` follows the documentation. -/
theorem C101_exact (c : Cls) : getBool c = .ok (docTruth c) ↔
    (c ≠ .number (.fin 0) ∧ (∀ d, c ≠ .precise false d) ∧ c ≠ .string [] ∧ c ≠ .array 0 ∧ c ≠ .object 0) := by
  cases c with
  | precise b d => cases b <;> simp [getBool, docTruth]
  | bool b => simp [getBool, docTruth]
  | undef | null | zero | emptyStr | emptyArr | emptyObj | number | string | array | object => simp [getBool, docTruth]

/-- C101: values made by the constructors for scalars, strings and lists, and precise integers, follow it. -/
theorem C101_constructors_partial : (∀ b, getBool (ofBool b) = .ok b) ∧ (∀ i, getBool (ofInt i) = .ok (decide (i ≠ 0))) ∧
    (∀ d, getBool (ofDouble d) = .ok (decide (d ≠ .fin 0))) ∧ (∀ s, getBool (ofString s) = .ok (decide (s ≠ []))) ∧
    (∀ n, getBool (ofList n) = .ok (decide (n ≠ 0))) ∧ (∀ d, getBool (ofPrecise true d) = .ok (decide (d ≠ .fin 0))) ∧
    (∀ b d, getBool (touch (ofPrecise b d)) = .ok (decide (d ≠ .fin 0))) := by
  refine ⟨fun _ => rfl, fun i => ?_, fun d => ?_, fun s => ?_, fun n => ?_, fun _ => rfl, fun _ _ => rfl⟩
  · unfold ofInt; split <;> simp_all [getBool]
  · unfold ofDouble; split <;> simp_all [getBool]
  · unfold ofString; split <;> simp_all [getBool]
  · unfold ofList; split <;> simp_all [getBool]

/-- C101 does not hold: an empty array or object that is not the shared empty value is true although "empty object or empty
array" is documented as false. Such values come from `Value(StringView<Value>)`, from the binary parser, from set operations
and from committing an array of undefined items. The same holds for an empty binary string. -/
theorem C101_violation_empty : getBool (ofView 0) = .ok true ∧ docTruth (ofView 0) = false ∧ getBool (ofMembers 0) = .ok true ∧
    docTruth (ofMembers 0) = false ∧ getBool (ofBinary []) = .ok true ∧ docTruth (ofBinary []) = false := by decide

/-- C101 does not hold: the truth value of equal empty arrays depends on how they were made. -/
theorem C101_violation_equal_arrays : getBool (ofList 0) = .ok false ∧ getBool (ofView 0) = .ok true := by decide

/-- C101 does not hold for precise floating point numbers: until a numeric getter has been called, `getBool` reads an
uninitialised member (stringValue.cpp:214-217), for every such number. -/
theorem C101_violation_uninitialised (d : Dbl) : getBool (ofPrecise false d) = .ub := rfl

/-! ## C102 -/

/-- C102: `getValueOrDefault` returns the default exactly for values of another type (64-bit, boolean and string
overloads). -/
theorem C102_type_decides (fp : FP) (v : JV) :
    (∀ d, (∃ n, v = .num n) → orLong fp v d = getInt fp v) ∧ (∀ d, (¬ ∃ n, v = .num n) → orLong fp v d = .ok d) ∧
    (∀ d, (∃ n, v = .num n) → orULong fp v d = getUInt fp v) ∧ (∀ d, (¬ ∃ n, v = .num n) → orULong fp v d = .ok d) ∧
    (∀ d b, v = .bool b → orBool v d = b) ∧ (∀ d, (¬ ∃ b, v = .bool b) → orBool v d = d) ∧
    (∀ d s, v = .str s → orStr v d = s) ∧ (∀ d, (¬ ∃ s, v = .str s) → orStr v d = d) := by
  cases v <;> simp [orLong, orULong, orBool, orStr]

/-- C102: the 32-bit overloads give the stored integer when it fits 32 bits. -/
theorem C102_narrow_partial (fp : FP) (n : JNum) (i : Int) (hi : storedInt n = some i) (hf : Fits64 n) (d : Int) (d' : Nat) :
    (-2 ^ 31 ≤ i → i < 2 ^ 31 → orInt fp (.num n) d = .ok i) ∧ (0 ≤ i → i < 2 ^ 32 → orUInt fp (.num n) d' = .ok i.toNat) := by
  obtain ⟨h1, h2⟩ := C100_integers fp n i hi hf
  constructor
  · intro a b
    have e := h1 (by omega) (by omega)
    show (getInt fp (.num n) >>= fun i => pure (wrap32 i)) = _
    rw [e, Res.bind_ok, Res.pure_eq]
    unfold wrap32
    congr 1
    split <;> omega
  · intro a b
    have e := h2 a (by omega)
    show (getUInt fp (.num n) >>= fun i => pure (i % 2 ^ 32)) = _
    rw [e, Res.bind_ok, Res.pure_eq, Nat.mod_eq_of_lt (by omega)]

example : storedInt (.int (-7)) = some (-7) ∧ Fits64 (.int (-7)) := ⟨rfl, by unfold Fits64; decide⟩

/-- C102 does not hold for the 32-bit overloads: the stored number is silently reduced modulo 2^32; 2^32 reads as zero, and
3000000000 as a negative `int`. -/
theorem C102_violation_narrow (fp : FP) : orInt fp (.num (.uint 4294967296)) 7 = .ok 0 ∧
    orInt fp (.num (.uint 3000000000)) 7 = .ok (-1294967296) ∧ orUInt fp (.num (.uint 4294967297)) 7 = .ok 1 := by
  refine ⟨?_, ?_, ?_⟩ <;> rfl

/-! ## C103 -/

theorem parsePrecise_asked {s txt : Bytes} {fl : Bool} {r : Bytes} (h : parsePrecise s = .ok (txt, fl, r)) :
    preciseAsked s = txt.length + 1 := by
  unfold parsePrecise at h
  unfold preciseAsked
  dsimp only at h ⊢
  split at h
  · cases h
  · next hne =>
    rw [if_neg hne]
    split at h
    · next he => cases h; rw [he]; simp only [List.length_append]
    · next c cs he =>
      rw [he]; dsimp only
      split at h
      · next hc =>
        rw [if_pos hc]
        split at h
        · cases h
        · cases h
          simp only [List.length_append, List.length_singleton]
      · next hc =>
        rw [if_neg hc]; cases h; simp only [List.length_append]

/-- C103: what is accepted, exactly: the parser must have consumed the whole view; it may also have consumed the one
character behind it. The value keeps the consumed text. -/
theorem C103_exact (number : Bytes) (a : Nat) (n : JNum) : preciseNumber number (some a) = .ok n ↔
    ∃ txt fl r, parsePrecise (number ++ [a]) = .ok (txt, fl, r) ∧ (txt = number ∨ txt = number ++ [a]) ∧
      n = numberFromStringRaw txt fl := by
  have hdef : preciseNumber number (some a) = match parsePrecise (number ++ [a]) with
      | .ok (txt, fl, _) => if preciseAsked (number ++ [a]) ≤ number.length then .err else .ok (numberFromStringRaw txt fl)
      | _ => .err := by
    unfold preciseNumber
    rw [if_neg (by simp)]
    rfl
  rw [hdef]
  cases hp : parsePrecise (number ++ [a]) with
  | ok p =>
    obtain ⟨txt, fl, r⟩ := p
    dsimp only
    have ha := parsePrecise_asked hp
    obtain ⟨t, -, -, hs⟩ := parsePrecise_sound (s := number ++ [a]) (txt := txt) (fl := fl) (r := r) ⟨False, True, True⟩ trivial hp
    have hcase : ¬ preciseAsked (number ++ [a]) ≤ number.length ↔ (txt = number ∨ txt = number ++ [a]) := by
      rw [ha]
      constructor
      · intro hl
        have hlen : (number ++ [a]).length = txt.length + r.length := by rw [hs]; simp
        simp only [List.length_append, List.length_singleton] at hlen
        cases hr : r with
        | nil => right; rw [hr, List.append_nil] at hs; exact hs.symm
        | cons x r' =>
          left
          have : r' = [] := by
            apply List.length_eq_zero_iff.1
            rw [hr, List.length_cons] at hlen
            omega
          subst this
          rw [hr] at hs
          exact ((List.append_inj' hs rfl).1).symm
      · rintro (rfl | rfl)
        · omega
        · rw [List.length_append, List.length_singleton]; omega
    constructor
    · intro h
      split at h
      · cases h
      · next hl => cases h; exact ⟨txt, fl, r, rfl, hcase.1 hl, rfl⟩
    · rintro ⟨txt', fl', r', e, hc, rfl⟩
      cases e
      rw [if_neg (hcase.2 hc)]
  | err | ub | abort | fuel => simp

/-- C103: every JSON number is accepted when the character behind the view cannot continue a number (the terminating zero
of a string, for instance); the value keeps the text, and integers that fit are exact. -/
theorem C103_accepts_partial (t : NumTok) (ht : t.WF) (a : Nat) (ha : StopNum [a]) :
    ∃ cls, preciseNumber t.text (some a) = .ok (.prec t.text cls) ∧
      (t.frac = none → t.exp = none → decVal t.int < (if t.neg then 2 ^ 63 else 2 ^ 64) →
        cls = if t.neg then .sint (-(decVal t.int : Int)) else .unat (decVal t.int)) := by
  obtain ⟨cls, hc⟩ := numberFromStringRaw_prec t.text (decide (¬ (t.frac = none ∧ t.exp = none)))
  refine ⟨cls, ?_, ?_⟩
  · rw [C103_exact]
    exact ⟨_, _, _, parsePrecise_text t ht [a] ha, Or.inl rfl, hc.symm⟩
  · intro hf he hv
    obtain ⟨neg, int, frac, exp⟩ := t
    dsimp only at hf he hv
    subst hf he
    have := C11_precise_fits_partial (if neg then [0x2D] else []) int (by cases neg <;> simp) ht.int.1 (by
      cases neg <;> simpa using hv)
    have htx : NumTok.text ⟨neg, int, none, none⟩ = (if neg then [0x2D] else []) ++ int := by
      simp [NumTok.text, fracText, expText]
    rw [htx] at hc
    simp only [and_self, not_true_eq_false, decide_false] at hc
    rw [this] at hc
    cases hc
    cases neg <;> simp

example : NumTok.WF ⟨true, ascii "12", some (ascii "50"), none⟩ ∧ StopNum [0] :=
  ⟨⟨by decide, by decide, by decide⟩, by intro c r h; cases h; decide⟩

theorem digits_last (l ds : Bytes) (h : ds ≠ []) (hd : ∀ c ∈ ds, IsDig c) : ∃ c, (l ++ ds).getLast? = some c ∧ IsDig c := by
  refine ⟨ds.getLast h, ?_, hd _ (List.getLast_mem h)⟩
  rw [List.getLast?_append, List.getLast?_eq_some_getLast h]
  rfl

theorem ltok_last {D : Dialect} (t : LTok) (h : t.WF D) (hD : D.precise) :
    ∃ c, t.text.getLast? = some c ∧ (IsDig c ∨ c = 0x2E) := by
  obtain ⟨sg, int, frac, exp⟩ := t
  unfold LTok.text
  dsimp only
  cases exp with
  | some e =>
    obtain ⟨-, -, h1, h2⟩ := h.exp e rfl
    obtain ⟨c, hc, hd⟩ := digits_last (sg ++ (int ++ (fracText frac ++ (e.1 :: e.2.1)))) e.2.2 h1 h2
    refine ⟨c, ?_, Or.inl hd⟩
    rw [← hc]
    simp [expText]
  | none =>
    cases frac with
    | none =>
      obtain ⟨c, hc, hd⟩ := digits_last sg int (h.prec hD) h.int
      exact ⟨c, by simpa [fracText, expText] using hc, Or.inl hd⟩
    | some f =>
      by_cases hf : f = []
      · subst hf
        refine ⟨0x2E, ?_, Or.inr rfl⟩
        have : sg ++ (int ++ (fracText (some []) ++ expText none)) = (sg ++ int) ++ [0x2E] := by simp [fracText, expText]
        rw [this, List.getLast?_concat]
      · obtain ⟨c, hc, hd⟩ := digits_last (sg ++ (int ++ [0x2E])) f hf (h.frac f rfl)
        refine ⟨c, ?_, Or.inl hd⟩
        rw [← hc]
        simp [fracText, expText]

/-- C103: with such a character behind the view, only the view itself is taken, and it is a number of the lenient grammar. -/
theorem C103_sound_partial (number : Bytes) (a : Nat) (ha : StopNum [a]) (n : JNum) (h : preciseNumber number (some a) = .ok n) :
    (∃ cls, n = .prec number cls) ∧ ∃ t : LTok, t.WF ⟨False, True, True⟩ ∧ number = t.text := by
  rw [C103_exact] at h
  obtain ⟨txt, fl, r, hp, hc, rfl⟩ := h
  obtain ⟨t, hwf, e1, e2⟩ := parsePrecise_sound ⟨False, True, True⟩ trivial hp
  have : txt = number := by
    rcases hc with h | h
    · exact h
    · exfalso
      have hne : t.text.getLast? = some a := by rw [← e1, h]; simp
      obtain ⟨h1, h2, h3, h4⟩ := ha a [] rfl
      have dig : ∀ c, IsDig c → c ≠ a := by
        rintro c hc rfl
        rw [Bool.eq_false_iff] at h1
        exact h1 ((isDigit_iff c).2 hc)
      obtain ⟨c, hc1, hc2⟩ := ltok_last t hwf trivial
      rw [hc1] at hne
      cases hne
      rcases hc2 with hc2 | hc2
      · exact dig _ hc2 rfl
      · exact h2 hc2
  subst this
  obtain ⟨cls, e⟩ := numberFromStringRaw_prec txt fl
  exact ⟨⟨cls, e⟩, t, hwf, e1⟩

example : preciseNumber (ascii "-12.50") (some 0) = .ok (.prec (ascii "-12.50") .dbl) ∧ StopNum [0] :=
  ⟨by decide +kernel, by intro c r h; cases h; decide⟩

/-- C103 does not hold: the digit behind the view becomes part of the number. The view "12" of the text "123" gives 123. -/
theorem C103_violation_reads_behind : preciseNumber (ascii "12") (some 0x33) = .ok (.prec (ascii "123") (.unat 123)) := by
  decide +kernel

/-- C103 does not hold: for every number, a view at the very end of its memory is read past that end. -/
theorem C103_violation_out_of_bounds (t : NumTok) (ht : t.WF) : preciseNumber t.text none = .ub := by
  have hp := parsePrecise_text t ht [] (by intro c r h; cases h)
  rw [List.append_nil] at hp
  have ha := parsePrecise_asked hp
  have hb : preciseAsked (t.text ++ (none : Option Nat).toList) > t.text.length := by
    rw [Option.toList_none, List.append_nil, ha]; omega
  unfold preciseNumber
  exact if_pos ⟨rfl, hb⟩

/-- C103 does not hold: texts that are no JSON numbers are accepted and later written unchanged as JSON. -/
theorem C103_violation_accepts_non_json : preciseNumber (ascii "+1") (some 0) = .ok (.prec (ascii "+1") (.unat 1)) ∧
    preciseNumber (ascii "1.") (some 0) = .ok (.prec (ascii "1.") .dbl) ∧
    preciseNumber (ascii "007") (some 0) = .ok (.prec (ascii "007") (.unat 7)) := by decide +kernel

end Imt.Props
