import Verif.Lemmas.ParserSound
/-! # Properties of the text parser: C72, C73 -/
namespace Imt.Props
open Imt Parser Spec

/-! ## C73 — the parser accepts nothing but the lenient grammar -/

/-- C73: whatever is accepted consists of white space and a value of the lenient grammar, whose meaning is the value
returned; the remainder is untouched. In particular brackets match, commas and colons stand where JSON has them, keys are
strings, keywords are spelled out, numbers have the exact value of their token (or keep its text), keys are distinct
unless duplicates are allowed. -/
theorem C73_sound (cfg : Cfg) (s : Bytes) (v : JV) (r : Bytes) (h : parse cfg s = .ok (v, r)) :
    ∃ w t, s = w ++ (t ++ r) ∧ LWs w ∧ LVal cfg.dialect t v :=
  (parse_sound cfg _).1 s v r h

example : parse {} (ascii " [1,{\"x\":+.5}] tail") =
    .ok (.arr [.num (.uint 1), .obj [(ascii "x", .num (.dbl ⟨false, 0, 5, 1, 0⟩))]], ascii " tail") := by decide +kernel

/-- The first character of a value decides its kind. -/
theorem lval_head {D : Dialect} {t : Bytes} {v : JV} (h : LVal D t v) : ∃ c r, t = c :: r ∧
    (c = 0x6E ∨ c = 0x74 ∨ c = 0x66 ∨ c = 0x22 ∨ c = 0x5B ∨ c = 0x7B ∨ c = 0x2B ∨ c = 0x2D ∨ c = 0x2E ∨ IsDig c) := by
  cases h with
  | null => exact ⟨0x6E, (ascii "null").tail, by decide, by simp⟩
  | true => exact ⟨0x74, (ascii "true").tail, by decide, by simp⟩
  | false => exact ⟨0x66, (ascii "false").tail, by decide, by simp⟩
  | @num t n ht hd hp =>
    obtain ⟨sg, i, f, e⟩ := t
    have h1 := ht.sign
    dsimp only at h1
    rcases h1 with rfl | rfl | rfl
    · cases i with
      | cons c i => exact ⟨c, _, rfl, by simp [ht.int c (by simp)]⟩
      | nil =>
        by_cases hq : D.precise
        · exact absurd rfl (ht.prec hq)
        · have := (ht.plain hq).2 rfl
          cases f with
          | none => exact absurd rfl this
          | some f => exact ⟨0x2E, _, rfl, by simp⟩
    · exact ⟨_, _, rfl, by simp⟩
    · exact ⟨_, _, rfl, by simp⟩
  | str _ _ => exact ⟨_, _, rfl, by simp⟩
  | arr0 _ => exact ⟨_, _, rfl, by simp⟩
  | arr _ => exact ⟨_, _, rfl, by simp⟩
  | obj0 _ => exact ⟨_, _, rfl, by simp⟩
  | obj _ _ _ _ => exact ⟨_, _, rfl, by simp⟩

/-- C73: a text whose first character after the white space starts no JSON value is rejected. -/
theorem C73_rejects_other (cfg : Cfg) (w : Bytes) (c : Nat) (r : Bytes) (hw : LWs w)
    (hc : ¬ (c = 0x20 ∨ (9 ≤ c ∧ c ≤ 13) ∨ c = 0x6E ∨ c = 0x74 ∨ c = 0x66 ∨ c = 0x22 ∨ c = 0x5B ∨ c = 0x7B ∨ c = 0x2B ∨ c = 0x2D ∨ c = 0x2E ∨ IsDig c)) :
    parse cfg (w ++ c :: r) = .err := by
  have hg := (parse_good cfg (2 * (w ++ c :: r).length + 1)).1 (w ++ c :: r) (Nat.le_refl _)
  cases h : parse cfg (w ++ c :: r) with
  | err => rfl
  | ok x =>
    exfalso
    obtain ⟨v, r'⟩ := x
    obtain ⟨w', t, e, hw', ht⟩ := C73_sound cfg _ v r' h
    obtain ⟨c', t', rfl, hc'⟩ := lval_head ht
    have hsp : ∀ c, (c = 0x6E ∨ c = 0x74 ∨ c = 0x66 ∨ c = 0x22 ∨ c = 0x5B ∨ c = 0x7B ∨ c = 0x2B ∨ c = 0x2D ∨ c = 0x2E ∨ IsDig c) →
        ¬ (c = 0x20 ∨ (9 ≤ c ∧ c ≤ 13)) := by
      intro c hc; unfold IsDig at hc; omega
    have : w = w' ∧ c = c' := by
      clear h hg ht
      induction w generalizing w' with
      | nil =>
        cases w' with
        | nil => simp at e; exact ⟨rfl, e.1⟩
        | cons a w' =>
          simp at e
          have := hw' a (by simp)
          rw [← e.1] at this; tauto
      | cons a w ih =>
        cases w' with
        | nil =>
          simp at e
          have := hw a (by simp)
          rw [e.1] at this
          exact absurd this (hsp c' hc')
        | cons b w' =>
          simp at e
          obtain ⟨h1, h2⟩ := ih (fun x hx => hw x (List.mem_cons_of_mem _ hx)) w'
            (fun x hx => hw' x (List.mem_cons_of_mem _ hx)) (by simpa using e.2)
          exact ⟨by rw [e.1, h1], h2⟩
    rw [this.2] at hc
    tauto
  | ub => unfold parse at h; rw [h] at hg; exact hg.elim
  | abort => unfold parse at h; rw [h] at hg; exact hg.elim
  | fuel => unfold parse at h; rw [h] at hg; exact hg.elim

example : ¬ ((0x5D : Nat) = 0x20 ∨ (9 ≤ (0x5D : Nat) ∧ (0x5D : Nat) ≤ 13) ∨ (0x5D : Nat) = 0x6E ∨ (0x5D : Nat) = 0x74 ∨ (0x5D : Nat) = 0x66 ∨
    (0x5D : Nat) = 0x22 ∨ (0x5D : Nat) = 0x5B ∨ (0x5D : Nat) = 0x7B ∨ (0x5D : Nat) = 0x2B ∨ (0x5D : Nat) = 0x2D ∨ (0x5D : Nat) = 0x2E ∨ IsDig 0x5D) := by
  decide

/-! ## C72 — arguments of the character classification functions -/

/-- `char n = next()` (parser.h:104): whatever the source, the character is cut to a (signed) `char`. -/
def asChar (c : Nat) : Int := if c ≥ 128 then (c : Int) - 256 else c

/-- `isspace` as the C standard defines it: arguments other than `EOF` (-1) and 0..255 are undefined behaviour. -/
def isSpaceStd (i : Int) : Res Bool :=
  if i = -1 then .ok false else if i < 0 ∨ 255 < i then .ub else .ok (isSpace i.toNat)

/-- `Reader::nextWs` (parser.h:103-107) with that `isspace`. -/
def nextWsStd : Bytes → Res Bytes
  | [] => .ok []
  | c :: cs => do
    let b ← isSpaceStd (asChar c)
    if b then nextWsStd cs else pure (c :: cs)

/-- C72, partial: for plain ASCII text the call is defined and does what the model of the parser assumes. -/
theorem C72_defined_partial (s : Bytes) (h : ∀ c ∈ s, c < 128) : nextWsStd s = .ok (skipWs s) := by
  induction s with
  | nil => rfl
  | cons c cs ih =>
    have hc := h c (by simp)
    have hd : asChar c = (c : Int) := by unfold asChar; rw [if_neg (by omega)]
    have hs : isSpaceStd (c : Int) = .ok (isSpace c) := by
      unfold isSpaceStd
      rw [if_neg (by omega), if_neg (by omega), Int.toNat_natCast]
    rw [nextWsStd, hd, hs, Res.bind_ok, ih (fun x hx => h x (List.mem_cons_of_mem _ hx))]
    unfold skipWs
    rw [List.dropWhile_cons]
    cases isSpace c <;> rfl

example : (∀ c ∈ ascii "\n\t {}", c < 128) ∧ nextWsStd (ascii "\n\t {}") = .ok (ascii "{}") := by decide +kernel

/-- C72 fails for every source: a byte from 0x80 to 0xFE where a value, comma, colon or bracket is expected makes
`isspace` take a negative number. -/
theorem C72_violation (w : Bytes) (c : Nat) (cs : Bytes) (hw : LWs w) (h : 128 ≤ c) (h2 : c < 255) :
    nextWsStd (w ++ c :: cs) = .ub := by
  induction w with
  | nil =>
    rw [List.nil_append, nextWsStd]
    have : asChar c = (c : Int) - 256 := by unfold asChar; rw [if_pos h]
    rw [this]
    unfold isSpaceStd
    rw [if_neg (by omega), if_pos (by omega)]
    rfl
  | cons a w ih =>
    have ha := hw a (by simp)
    have hd : asChar a = (a : Int) := by unfold asChar; rw [if_neg (by omega)]
    have hs : isSpaceStd (a : Int) = .ok true := by
      unfold isSpaceStd
      rw [if_neg (by omega), if_neg (by omega), Int.toNat_natCast]
      congr 1
      simp [isSpace]; omega
    rw [List.cons_append, nextWsStd, hd, hs, Res.bind_ok]
    exact ih (fun x hx => hw x (List.mem_cons_of_mem _ hx))

end Imt.Props
