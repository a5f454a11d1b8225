import Verif.Model.Reader
import Verif.Lemmas.Parser
import Verif.Model.Stream
/-! # Lemmas: the parser over its reader does what the parser on the list of characters does -/
namespace Imt.Reader
open Imt

/-- The reader holds no character; the source is in front of `s` and was never asked behind its end. -/
def Un (r : Rd) (s : Bytes) : Prop := r.loaded = false ∧ Bytes.Valid s ∧ r.src = s ∧ r.eofs = 0
/-- The reader holds the first character of `s` (or the end, for which the source was asked once). -/
def Ld (cfg : Parser.Cfg) (r : Rd) (s : Bytes) : Prop :=
  r.loaded = true ∧ Bytes.Valid s ∧
    ((s = [] ∧ r.src = [] ∧ r.c = -1 ∧ r.eofs = 1) ∨ ∃ b, s = b :: r.src ∧ r.c = deliver cfg b ∧ r.eofs = 0)
/-- Either. -/
def Any (cfg : Parser.Cfg) (r : Rd) (s : Bytes) : Prop := Un r s ∨ Ld cfg r s
/-- What `next` returns in front of `s`. -/
def pk (cfg : Parser.Cfg) : Bytes → Int
  | [] => -1
  | b :: _ => deliver cfg b

theorem valid_tail {b : Nat} {s : Bytes} (h : Bytes.Valid (b :: s)) : Bytes.Valid s := fun x hx => h x (by simp [hx])
theorem valid_head {b : Nat} {s : Bytes} (h : Bytes.Valid (b :: s)) : b < 256 := h b (by simp)

theorem valid_suffix {r s : Bytes} (h : Bytes.Valid s) (hs : r <:+ s) : Bytes.Valid r := fun x hx => h x (hs.subset hx)

section chars
variable {cfg : Parser.Cfg} {b : Nat}

theorem dig_del (h : b < 256) : isDigitI (deliver cfg b) = Parser.isDigit b := by
  unfold deliver isDigitI Parser.isDigit
  rw [Bool.eq_iff_iff]
  simp only [Bool.and_eq_true, decide_eq_true_eq]
  split <;> omega
/-- The cut to `char` keeps the eight bits and lands in the range of a signed `char`. -/
theorem toChar_range {c : Int} (h : -1 ≤ c) (h2 : c < 256) :
    -128 ≤ toChar c ∧ toChar c < 128 ∧ (toChar c) % 256 = c % 256 := by
  unfold toChar; split <;> omega

theorem dig_char (h : b < 256) : isDigitI (toChar (deliver cfg b)) = Parser.isDigit b := by
  unfold toChar deliver isDigitI Parser.isDigit
  rw [Bool.eq_iff_iff]
  simp only [Bool.and_eq_true, decide_eq_true_eq]
  split <;> split <;> omega
theorem space_char (h : b < 256) : isSpaceI (toChar (deliver cfg b)) = Parser.isSpace b := by
  unfold toChar deliver isSpaceI Parser.isSpace
  rw [Bool.eq_iff_iff]
  simp only [Bool.and_eq_true, Bool.or_eq_true, decide_eq_true_eq, beq_iff_eq]
  split <;> split <;> omega
theorem isE_del (h : b < 256) : isEI (deliver cfg b) = Parser.isE b := by
  unfold deliver isEI Parser.isE
  rw [Bool.eq_iff_iff]
  simp only [Bool.or_eq_true, beq_iff_eq]
  split <;> omega
theorem del_eq (h : b < 256) {k : Nat} (hk : k < 128) : deliver cfg b = (k : Int) ↔ b = k := by
  unfold deliver; split <;> omega
theorem char_eq (h : b < 256) {k : Nat} (hk : k < 128) : toChar (deliver cfg b) = (k : Int) ↔ b = k := by
  unfold toChar deliver; split <;> split <;> omega
theorem del_eof (h : b < 256) : deliver cfg b = -1 ↔ b = 0xFF ∧ cfg.signedSrc = true := by
  unfold deliver
  split
  · rename_i hs; simp only [hs.1, and_true]; omega
  · rename_i hs
    simp only [not_and] at hs
    constructor
    · intro h; omega
    · rintro ⟨h1, h2⟩; exact absurd (by omega) (hs h2)
theorem del_small (h : b < 128) : deliver cfg b = b := by
  unfold deliver; split <;> omega
theorem char_small (h : b < 128) : toChar (deliver cfg b) = b := by
  rw [del_small h]; unfold toChar; split <;> omega
end chars

theorem Any.valid {cfg : Parser.Cfg} {r : Rd} {s : Bytes} (h : Any cfg r s) : Bytes.Valid s := by
  rcases h with h | h
  · exact h.2.1
  · exact h.2.1

theorem Any.len {cfg : Parser.Cfg} {r : Rd} {s : Bytes} (h : Any cfg r s) : s.length < r.src.length + 2 := by
  rcases h with ⟨-, -, h, -⟩ | ⟨-, -, ⟨h, -⟩ | ⟨b, h, -⟩⟩ <;> rw [h] <;> simp

theorem next_spec {cfg : Parser.Cfg} {r : Rd} {s : Bytes} (h : Any cfg r s) :
    (next cfg r).1 = pk cfg s ∧ Ld cfg (next cfg r).2 s := by
  unfold next
  rcases h with ⟨h1, h2, h3, h4⟩ | ⟨h1, h2, h3⟩
  · rw [h1, if_neg (by simp)]
    unfold source
    cases s with
    | nil => simp only [h3]; exact ⟨rfl, rfl, h2, Or.inl ⟨rfl, rfl, rfl, by rw [h4]⟩⟩
    | cons b s => simp only [h3]; exact ⟨rfl, rfl, h2, Or.inr ⟨b, rfl, rfl, h4⟩⟩
  · rw [h1, if_pos rfl]
    refine ⟨?_, h1, h2, h3⟩
    rcases h3 with ⟨rfl, -, h, -⟩ | ⟨b, rfl, h, -⟩
    · exact h
    · exact h

theorem commit_spec {cfg : Parser.Cfg} {r : Rd} {b : Nat} {s : Bytes} (h : Ld cfg r (b :: s)) : Un (commit r) s := by
  obtain ⟨-, h2, ⟨h3, -⟩ | ⟨b', h3, -, h4⟩⟩ := h
  · cases h3
  · injection h3 with h5 h6
    exact ⟨rfl, valid_tail h2, h6.symm, h4⟩

theorem nextCommit_spec {cfg : Parser.Cfg} {r : Rd} {b : Nat} {s : Bytes} (h : Ld cfg r (b :: s)) :
    nextCommit cfg r = (deliver cfg b, commit r) := by
  obtain ⟨h1, -, ⟨h3, -⟩ | ⟨b', h3, h4, -⟩⟩ := h
  · cases h3
  · injection h3 with h5 h6
    unfold nextCommit
    rw [h1, if_pos rfl, h5, ← h4]
    rfl

/-- `readFast` in front of a character. -/
theorem readFast_cons {cfg : Parser.Cfg} {r : Rd} {b : Nat} {s : Bytes} (h : Un r (b :: s)) :
    ∃ r', readFast cfg r = (deliver cfg b, r') ∧ Un r' s := by
  obtain ⟨h1, h2, h3, h4⟩ := h
  refine ⟨{ r with src := s }, ?_, h1, valid_tail h2, rfl, h4⟩
  unfold readFast source; rw [h3]
theorem readFast_nil {cfg : Parser.Cfg} {r : Rd} (h : r.src = []) :
    ∃ r', readFast cfg r = (-1, r') ∧ r'.src = [] := by
  refine ⟨{ r with eofs := r.eofs + 1 }, ?_, h⟩
  unfold readFast source; rw [h]

/-- A local character `c` and a reader without character. -/
def Loc (cfg : Parser.Cfg) (c : Int) (r : Rd) (s : Bytes) : Prop := Ld cfg (putBack c r) s

theorem Loc.pk {cfg : Parser.Cfg} {c : Int} {r : Rd} {s : Bytes} (h : Loc cfg c r s) : c = pk cfg s := by
  obtain ⟨-, -, ⟨rfl, -, h, -⟩ | ⟨b, rfl, h, -⟩⟩ := h
  · exact h
  · exact h
theorem Loc.len {cfg : Parser.Cfg} {c : Int} {r : Rd} {s : Bytes} (h : Loc cfg c r s) : s.length < r.src.length + 2 :=
  Any.len (r := putBack c r) (Or.inr h)

theorem loc_read {cfg : Parser.Cfg} {r : Rd} {s : Bytes} (h2 : Bytes.Valid s) (h3 : r.src = s) (h4 : r.eofs = 0) :
    Loc cfg (readFast cfg r).1 (readFast cfg r).2 s := by
  unfold readFast source
  cases s with
  | nil => rw [h3]; exact ⟨rfl, h2, Or.inl ⟨rfl, rfl, rfl, by simp only [putBack, h4]⟩⟩
  | cons b s => rw [h3]; exact ⟨rfl, h2, Or.inr ⟨b, rfl, rfl, h4⟩⟩

theorem loc_next {cfg : Parser.Cfg} {c : Int} {r : Rd} {b : Nat} {s : Bytes} (h : Loc cfg c r (b :: s)) :
    Loc cfg (readFast cfg r).1 (readFast cfg r).2 s := by
  obtain ⟨-, h2, ⟨h3, -⟩ | ⟨b', h3, -, h4⟩⟩ := h
  · cases h3
  · injection h3 with h5 h6
    exact loc_read (valid_tail h2) h6.symm h4

/-! ## Loops -/

theorem nextWsL_spec (cfg : Parser.Cfg) (s : Bytes) : ∀ (n : Nat) (r : Rd), Any cfg r s → s.length < n →
    ∃ r', nextWsL cfg n r = .ok (toChar (pk cfg (Parser.skipWs s)), r') ∧ Ld cfg r' (Parser.skipWs s) := by
  induction s with
  | nil =>
    intro n r h hn
    obtain ⟨n, rfl⟩ : ∃ m, n = m + 1 := ⟨n - 1, by omega⟩
    obtain ⟨h1, h2⟩ := next_spec h
    refine ⟨(next cfg r).2, ?_, h2⟩
    rw [nextWsL]
    rw [h1, pk, if_neg (by decide)]
    rfl
  | cons b s ih =>
    intro n r h hn
    obtain ⟨n, rfl⟩ : ∃ m, n = m + 1 := ⟨n - 1, by simp at hn; omega⟩
    obtain ⟨h1, h2⟩ := next_spec h
    have hb := valid_head h.valid
    rw [nextWsL]
    rw [h1, pk, space_char hb]
    unfold Parser.skipWs at ih ⊢
    rw [List.dropWhile_cons]
    split
    · exact ih n _ (Or.inl (commit_spec h2)) (by simp at hn; omega)
    · exact ⟨_, rfl, h2⟩

theorem nextWs_spec {cfg : Parser.Cfg} {s : Bytes} {r : Rd} (h : Any cfg r s) :
    ∃ r', nextWs cfg r = .ok (toChar (pk cfg (Parser.skipWs s)), r') ∧ Ld cfg r' (Parser.skipWs s) :=
  nextWsL_spec cfg s _ r h h.len

theorem digit_toNat {b : Nat} {cfg : Parser.Cfg} (hb : b < 256) (hd : Parser.isDigit b = true) :
    (toChar (deliver cfg b) - 48).toNat = b - 48 := by
  have : b < 128 := by unfold Parser.isDigit at hd; simp at hd; omega
  rw [char_small this]; omega

theorem unsL_spec (cfg : Parser.Cfg) (s : Bytes) : ∀ (n res cnt : Nat) (r : Rd), Any cfg r s → s.length < n →
    ∃ r' m, unsL cfg n res cnt r =
        .ok (((Parser.parseUnsigned res s).1, (Parser.parseUnsigned res s).2.1, cnt + m), r') ∧
      Ld cfg r' (Parser.parseUnsigned res s).2.2 ∧
      s.length = m + (Parser.parseUnsigned res s).2.2.length ∧
      (∀ a j k, Parser.digitsVal (a * 10 ^ j + res) k s =
        Parser.digitsVal (a * 10 ^ (j + m) + (Parser.parseUnsigned res s).2.1) (k + m) (Parser.parseUnsigned res s).2.2) := by
  induction s with
  | nil =>
    intro n res cnt r h hn
    obtain ⟨n, rfl⟩ : ∃ m, n = m + 1 := ⟨n - 1, by omega⟩
    obtain ⟨h1, h2⟩ := next_spec h
    refine ⟨(next cfg r).2, 0, ?_, h2, rfl, fun a j k => rfl⟩
    rw [unsL]
    dsimp only
    rw [h1, pk, if_neg (by decide)]
    rfl
  | cons b s ih =>
    intro n res cnt r h hn
    obtain ⟨n, rfl⟩ : ∃ m, n = m + 1 := ⟨n - 1, by simp at hn; omega⟩
    obtain ⟨h1, h2⟩ := next_spec h
    have hb := valid_head h.valid
    rw [unsL, Parser.parseUnsigned]
    dsimp only
    rw [h1, pk, dig_char hb]
    by_cases hd : Parser.isDigit b = true
    · rw [if_pos hd, if_pos hd, digit_toNat hb hd]
      split
      · exact ⟨_, 0, rfl, h2, by simp, fun a j k => rfl⟩
      · rename_i hov
        split
        · exact ⟨_, 0, rfl, h2, by simp, fun a j k => rfl⟩
        · rename_i hlt
          have hnw : (res * 10 + (b - 48)) % 2 ^ 64 = res * 10 + (b - 48) := by
            unfold Parser.isDigit at hd; simp at hd
            apply Nat.mod_eq_of_lt
            apply Classical.byContradiction
            intro hc
            apply hlt
            have : res * 10 + (b - 48) < 2 * 2 ^ 64 := by omega
            rw [Nat.mod_eq_sub_mod (by omega), Nat.mod_eq_of_lt (by omega)]
            omega
          obtain ⟨r', m, e1, e2, e3, e4⟩ := ih n ((res * 10 + (b - 48)) % 2 ^ 64) (cnt + 1) _ (Or.inl (commit_spec h2)) (by simp at hn; omega)
          refine ⟨r', m + 1, ?_, e2, by rw [List.length_cons]; omega, fun a j k => ?_⟩
          · rw [e1]; congr 4; omega
          · rw [Parser.digitsVal, if_pos hd]
            have := e4 a (j + 1) (k + 1)
            have e5 : (a * 10 ^ j + res) * 10 + (b - 48) = a * 10 ^ (j + 1) + (res * 10 + (b - 48)) % 2 ^ 64 := by
              rw [hnw, Nat.pow_succ, Nat.add_mul, Nat.mul_assoc, Nat.add_assoc]
            rw [e5, this]
            congr 1
            · congr 2; congr 1; omega
            · omega
    · rw [if_neg hd, if_neg hd]
      exact ⟨_, 0, rfl, h2, by simp, fun a j k => rfl⟩

theorem uns_spec {cfg : Parser.Cfg} {s : Bytes} {r : Rd} (h : Any cfg r s) :
    ∃ r' m, uns cfg r = .ok (((Parser.parseUnsigned 0 s).1, (Parser.parseUnsigned 0 s).2.1, m), r') ∧
      Ld cfg r' (Parser.parseUnsigned 0 s).2.2 ∧
      s.length = m + (Parser.parseUnsigned 0 s).2.2.length ∧
      (∀ a k, Parser.digitsVal a k s =
        Parser.digitsVal (a * 10 ^ m + (Parser.parseUnsigned 0 s).2.1) (k + m) (Parser.parseUnsigned 0 s).2.2) := by
  obtain ⟨r', m, h1, h2, h3, h4⟩ := unsL_spec cfg s _ 0 0 r h h.len
  refine ⟨r', m, ?_, h2, h3, fun a k => ?_⟩
  · rw [uns, h1, Nat.zero_add]
  · have := h4 a 0 k
    rwa [Nat.pow_zero, Nat.mul_one, Nat.add_zero, Nat.zero_add] at this

theorem uns_progress (b : Nat) (s : Bytes) (hd : Parser.isDigit b = true) :
    (Parser.parseUnsigned 0 (b :: s)).2.2.length ≤ s.length := by
  rw [Parser.parseUnsigned, if_pos hd, if_neg (by decide)]
  dsimp only
  rw [if_neg (by simp)]
  exact (Parser.parseUnsigned_suffix _ _).length_le

/-- The number of digits only counts. -/
theorem digitsVal_shift (s : Bytes) : ∀ a k, Parser.digitsVal a k s =
    ((Parser.digitsVal a 0 s).1, k + (Parser.digitsVal a 0 s).2.1, (Parser.digitsVal a 0 s).2.2) := by
  induction s with
  | nil => intro a k; rfl
  | cons c s ih =>
    intro a k
    rw [Parser.digitsVal, Parser.digitsVal]
    split
    · rw [ih _ (k + 1), ih _ (0 + 1)]
      ext1
      · rfl
      · ext1
        · dsimp only; omega
        · rfl
    · rfl

theorem digitsVal_ge (s : Bytes) : ∀ a k, a ≤ (Parser.digitsVal a k s).1 := by
  induction s with
  | nil => intro a k; exact Nat.le_refl _
  | cons c s ih =>
    intro a k
    rw [Parser.digitsVal]
    split
    · exact Nat.le_trans (by omega) (ih _ _)
    · exact Nat.le_refl _

theorem largeL_spec (cfg : Parser.Cfg) (hm : ∀ a b, a ≤ b → cfg.tooLong a = true → cfg.tooLong b = true) (n : Nat) :
    ∀ (s : Bytes) (acc : Nat) (r : Rd), Any cfg r s → s.length < n →
    if (Parser.digitsVal acc 0 s).2.1 > 0 ∧ cfg.tooLong (Parser.digitsVal acc 0 s).1 = true then largeL cfg n acc r = .err
    else ∃ r', largeL cfg n acc r = .ok ((Parser.digitsVal acc 0 s).1, r') ∧ Ld cfg r' (Parser.digitsVal acc 0 s).2.2 := by
  induction n with
  | zero => intro s acc r h hn; omega
  | succ n ih =>
    intro s acc r h hn
    obtain ⟨h1, h2⟩ := next_spec h
    rw [largeL]
    dsimp only
    rw [h1]
    cases s with
    | nil =>
      rw [pk, if_neg (c := isDigitI (-1) = true) (by decide), if_neg (by simp [Parser.digitsVal])]
      exact ⟨_, rfl, h2⟩
    | cons b s =>
      have hb := valid_head h.valid
      rw [pk, dig_del hb]
      by_cases hd : Parser.isDigit b = true
      · rw [if_pos (c := Parser.isDigit b = true) hd]
        obtain ⟨r', m, e1, e2, e3, e4⟩ := uns_spec (Or.inr h2)
        have hp := uns_progress b s hd
        rw [e1]
        simp only [Res.bind_ok]
        have hD := e4 acc 0
        have hs := digitsVal_shift (Parser.parseUnsigned 0 (b :: s)).2.2 (acc * 10 ^ m + (Parser.parseUnsigned 0 (b :: s)).2.1) (0 + m)
        have hpos : 0 < m := by simp at e3; omega
        rw [hD, hs]
        dsimp only
        generalize acc * 10 ^ m + (Parser.parseUnsigned 0 (b :: s)).2.1 = acc' at hD hs ⊢
        generalize Parser.parseUnsigned 0 (b :: s) = u at e2 e3 e4 hD hs hp ⊢
        have hge := digitsVal_ge u.2.2 acc' 0
        have hih := ih u.2.2 acc' r' (Or.inr e2) (by simp at hn; omega)
        by_cases ht : cfg.tooLong acc' = true
        · rw [if_pos (c := cfg.tooLong acc' = true) ht, if_pos ⟨by omega, hm _ _ hge ht⟩]
        · rw [if_neg (c := cfg.tooLong acc' = true) ht]
          by_cases hc : (Parser.digitsVal acc' 0 u.2.2).2.1 > 0
          · by_cases ht' : cfg.tooLong (Parser.digitsVal acc' 0 u.2.2).1 = true
            · rw [if_pos ⟨hc, ht'⟩] at hih
              rw [if_pos ⟨by omega, ht'⟩]; exact hih
            · rw [if_neg (by simp [ht'])] at hih
              rw [if_neg (by simp [ht'])]; exact hih
          · rw [if_neg (by simp; intro h; omega)] at hih
            have hz : (Parser.digitsVal acc' 0 u.2.2).1 = acc' := by
              cases hu : u.2.2 with
              | nil => rfl
              | cons c t =>
                rw [hu, Parser.digitsVal] at hc
                rw [Parser.digitsVal]
                split
                · rename_i hdc
                  rw [if_pos hdc, digitsVal_shift] at hc
                  exact absurd (by dsimp only; omega) hc
                · rfl
            rw [if_neg (by rw [hz]; simp [ht])]
            exact hih
      · rw [if_neg (c := Parser.isDigit b = true) hd]
        rw [Parser.digitsVal, if_neg hd, if_neg (by simp)]
        exact ⟨_, rfl, h2⟩

theorem decimalL_spec (cfg : Parser.Cfg) (s : Bytes) : ∀ (n acc pos : Nat) (r : Rd), Any cfg r s → s.length < n →
    ∃ r', decimalL cfg n acc pos r = .ok (((Parser.digitsVal acc pos s).1, (Parser.digitsVal acc pos s).2.1), r') ∧
      Ld cfg r' (Parser.digitsVal acc pos s).2.2 := by
  induction s with
  | nil =>
    intro n acc pos r h hn
    obtain ⟨n, rfl⟩ : ∃ m, n = m + 1 := ⟨n - 1, by omega⟩
    obtain ⟨h1, h2⟩ := next_spec h
    refine ⟨(next cfg r).2, ?_, h2⟩
    rw [decimalL]
    dsimp only
    rw [h1, pk, if_neg (by decide)]
    rfl
  | cons b s ih =>
    intro n acc pos r h hn
    obtain ⟨n, rfl⟩ : ∃ m, n = m + 1 := ⟨n - 1, by simp at hn; omega⟩
    obtain ⟨h1, h2⟩ := next_spec h
    have hb := valid_head h.valid
    rw [decimalL, Parser.digitsVal]
    dsimp only
    rw [h1, pk, dig_del hb]
    by_cases hd : Parser.isDigit b = true
    · rw [if_pos hd, if_pos hd, nextCommit_spec h2, digit_toNat hb hd]
      exact ih n _ _ _ (Or.inl (commit_spec h2)) (by simp at hn; omega)
    · rw [if_neg hd, if_neg hd]
      exact ⟨_, rfl, h2⟩

theorem readSign_spec {cfg : Parser.Cfg} {s : Bytes} {r : Rd} (h : Any cfg r s) :
    (readSign cfg r).1 = (Parser.readSign s).1 ∧ Any cfg (readSign cfg r).2 (Parser.readSign s).2 := by
  obtain ⟨h1, h2⟩ := next_spec h
  unfold readSign
  dsimp only
  rw [h1]
  cases s with
  | nil => exact ⟨rfl, Or.inr h2⟩
  | cons b s =>
    have hb := valid_head h.valid
    have k1 : toChar (deliver cfg b) = 0x2D ↔ b = 0x2D := char_eq hb (by decide)
    have k2 : toChar (deliver cfg b) = 0x2B ↔ b = 0x2B := char_eq hb (by decide)
    rw [Parser.readSign, pk]
    by_cases c1 : b = 0x2D
    · rw [if_pos c1, if_pos (k1.2 c1)]; exact ⟨rfl, Or.inl (commit_spec h2)⟩
    · rw [if_neg c1, if_neg (fun h => c1 (k1.1 h))]
      by_cases c2 : b = 0x2B
      · rw [if_pos c2, if_pos (k2.2 c2)]; exact ⟨rfl, Or.inl (commit_spec h2)⟩
      · rw [if_neg c2, if_neg (fun h => c2 (k2.1 h))]; exact ⟨rfl, Or.inr h2⟩

/-! ## Results -/

/-- The reader's result `x` against the result `y` on the list: same value, the reader left as `R` says; same errors. -/
def Sim {α : Type} (R : Rd → Bytes → Prop) (x : Res (α × Rd)) (y : Res (α × Bytes)) : Prop :=
  match y with
  | .ok p => ∃ r, x = .ok (p.1, r) ∧ R r p.2
  | .err => x = .err
  | _ => True

theorem Sim.bind {α β : Type} {R S : Rd → Bytes → Prop} {x : Res (α × Rd)} {y : Res (α × Bytes)}
    {f : α × Rd → Res (β × Rd)} {g : α × Bytes → Res (β × Bytes)} (h : Sim R x y)
    (hf : ∀ v r s, y = .ok (v, s) → R r s → Sim S (f (v, r)) (g (v, s))) : Sim S (x >>= f) (y >>= g) := by
  cases y with
  | ok p =>
    obtain ⟨r, h1, h2⟩ := h
    rw [h1]
    simp only [Res.bind_ok]
    exact hf p.1 r p.2 rfl h2
  | err => have : x = .err := h; rw [this]; exact rfl
  | ub => exact trivial
  | abort => exact trivial
  | fuel => exact trivial

theorem Sim.mono {α : Type} {R S : Rd → Bytes → Prop} {x : Res (α × Rd)} {y : Res (α × Bytes)} (h : Sim R x y)
    (hRS : ∀ r s, R r s → S r s) : Sim S x y := by
  cases y with
  | ok p => obtain ⟨r, h1, h2⟩ := h; exact ⟨r, h1, hRS _ _ h2⟩
  | err => exact h
  | ub => exact trivial
  | abort => exact trivial
  | fuel => exact trivial

/-! ## Numbers -/

theorem large_spec {cfg : Parser.Cfg} (hm : ∀ a b, a ≤ b → cfg.tooLong a = true → cfg.tooLong b = true) {s : Bytes} {acc : Nat} {r : Rd}
    (h : Any cfg r s) :
    if (Parser.digitsVal acc 0 s).2.1 > 0 ∧ cfg.tooLong (Parser.digitsVal acc 0 s).1 = true then large cfg acc r = .err
    else ∃ r', large cfg acc r = .ok ((Parser.digitsVal acc 0 s).1, r') ∧ Ld cfg r' (Parser.digitsVal acc 0 s).2.2 :=
  largeL_spec cfg hm _ s acc r h h.len

theorem frac_spec {cfg : Parser.Cfg} {s : Bytes} {r : Rd} (h : Any cfg r s) :
    match Parser.parseFrac s with
    | .ok p => ∃ r', frac cfg r = .ok ((p.1, p.2.1), r') ∧ Ld cfg r' p.2.2
    | .err => frac cfg r = .err
    | _ => True := by
  obtain ⟨h1, h2⟩ := next_spec h
  unfold frac Parser.parseFrac
  dsimp only
  rw [h1]
  cases s with
  | nil =>
    rw [pk, if_neg (c := (-1 : Int) = 0x2E) (by decide)]
    exact ⟨_, rfl, h2⟩
  | cons b s =>
    have hb := valid_head h.valid
    have k1 : deliver cfg b = 0x2E ↔ b = 0x2E := del_eq hb (by decide)
    rw [pk]
    dsimp only
    by_cases c1 : b = 0x2E
    · rw [if_pos c1, if_pos (k1.2 c1)]
      have hU := commit_spec h2
      obtain ⟨h3, h4⟩ := next_spec (cfg := cfg) (Or.inl hU)
      rw [h3]
      cases s with
      | nil => rw [pk, if_neg (c := isDigitI (-1) = true) (by decide)]
      | cons d t =>
        have hd := valid_head hU.2.1
        rw [pk, dig_del hd]
        dsimp only
        by_cases c2 : Parser.isDigit d = true
        · rw [if_pos c2, if_pos c2]
          exact decimalL_spec cfg _ _ 0 0 _ (Or.inr h4) (Any.len (Or.inr h4))
        · rw [if_neg c2, if_neg c2]
    · rw [if_neg c1, if_neg (fun h => c1 (k1.1 h))]
      exact ⟨_, rfl, h2⟩

theorem expo_spec {cfg : Parser.Cfg} {s : Bytes} {r : Rd} (h : Any cfg r s) : Sim (Ld cfg) (expo cfg r) (Parser.parseExp s) := by
  obtain ⟨h1, h2⟩ := next_spec h
  unfold expo Parser.parseExp
  dsimp only
  rw [h1]
  cases s with
  | nil =>
    rw [pk, if_neg (c := isEI (-1) = true) (by decide)]
    exact ⟨_, rfl, h2⟩
  | cons b s =>
    have hb := valid_head h.valid
    rw [pk, isE_del hb]
    dsimp only
    by_cases c1 : Parser.isE b = true
    · rw [if_pos c1, if_pos c1]
      obtain ⟨h3, h4⟩ := readSign_spec (cfg := cfg) (Or.inl (commit_spec h2))
      obtain ⟨h5, h6⟩ := next_spec h4
      rw [h5, h3]
      generalize Parser.readSign s = sg at h4 h5 h6 ⊢
      obtain ⟨ng, t⟩ := sg
      dsimp only at h4 h5 h6 ⊢
      cases t with
      | nil => rw [pk, if_neg (c := isDigitI (-1) = true) (by decide)]; exact rfl
      | cons d t =>
        have hd := valid_head h4.valid
        rw [pk, dig_del hd]
        dsimp only
        by_cases c2 : Parser.isDigit d = true
        · rw [if_pos c2, if_pos c2]
          obtain ⟨r', m, e1, e2, -, -⟩ := uns_spec (Or.inr h6)
          rw [e1]
          simp only [Res.bind_ok]
          generalize Parser.parseUnsigned 0 (d :: t) = u at e2 ⊢
          by_cases c3 : u.1 = true
          · rw [if_pos c3, if_pos c3]; exact ⟨_, rfl, e2⟩
          · rw [if_neg c3, if_neg c3]; exact rfl
        · rw [if_neg c2, if_neg c2]; exact rfl
    · rw [if_neg c1, if_neg c1]
      exact ⟨_, rfl, h2⟩

theorem double_spec {cfg : Parser.Cfg} (hm : ∀ a b, a ≤ b → cfg.tooLong a = true → cfg.tooLong b = true) {s : Bytes} {acc : Nat}
    {ng : Bool} {r : Rd} (h : Any cfg r s) : Sim (Ld cfg) (parseDouble cfg acc ng r) (Parser.parseDouble cfg acc ng s) := by
  unfold parseDouble Parser.parseDouble
  dsimp only
  have hl := large_spec (acc := acc) hm h
  generalize Parser.digitsVal acc 0 s = l at hl ⊢
  by_cases c : l.2.1 > 0 ∧ cfg.tooLong l.1 = true
  · rw [if_pos c] at hl
    rw [if_pos c, hl]; exact rfl
  · rw [if_neg c] at hl
    rw [if_neg c]
    obtain ⟨r', e1, e2⟩ := hl
    rw [e1]
    simp only [Res.bind_ok]
    have hf := frac_spec (Or.inr e2)
    cases hp : Parser.parseFrac l.2.2 with
    | ok p =>
      rw [hp] at hf
      obtain ⟨r2, e3, e4⟩ := hf
      rw [e3]
      simp only [Res.bind_ok]
      refine Sim.bind (expo_spec (Or.inr e4)) ?_
      intro v r3 s3 _ h3
      exact ⟨_, rfl, h3⟩
    | err => rw [hp] at hf; dsimp only at hf; rw [hf]; exact rfl
    | ub => exact trivial
    | abort => exact trivial
    | fuel => exact trivial

theorem digL_spec (cfg : Parser.Cfg) (s : Bytes) : ∀ (n : Nat) (c : Int) (r : Rd), Loc cfg c r s → s.length < n →
    ∃ c' r', digL cfg n c r = .ok ((Parser.spanDigits s).1, c', r') ∧ Loc cfg c' r' (Parser.spanDigits s).2 := by
  induction s with
  | nil =>
    intro n c r h hn
    obtain ⟨n, rfl⟩ : ∃ m, n = m + 1 := ⟨n - 1, by omega⟩
    rw [digL, if_neg (by rw [h.pk, pk]; decide)]
    exact ⟨c, r, rfl, h⟩
  | cons b s ih =>
    intro n c r h hn
    obtain ⟨n, rfl⟩ : ∃ m, n = m + 1 := ⟨n - 1, by simp at hn; omega⟩
    have hb := valid_head h.2.1
    have hc : c = deliver cfg b := h.pk
    rw [digL, hc, dig_del hb, Parser.spanDigits]
    by_cases hd : Parser.isDigit b = true
    · rw [if_pos hd, if_pos hd]
      obtain ⟨c', r', e1, e2⟩ := ih n _ _ (loc_next h) (by simp at hn; omega)
      dsimp only
      rw [e1]
      simp only [Res.bind_ok, Res.pure_eq]
      refine ⟨c', r', ?_, e2⟩
      have : b < 128 := by unfold Parser.isDigit at hd; simp at hd; omega
      rw [del_small this]; rfl
    · rw [if_neg hd, if_neg hd]
      subst hc
      exact ⟨_, r, rfl, h⟩

theorem dig_spec {cfg : Parser.Cfg} {s : Bytes} {c : Int} {r : Rd} (h : Loc cfg c r s) :
    ∃ c' r', dig cfg c r = .ok ((Parser.spanDigits s).1, c', r') ∧ Loc cfg c' r' (Parser.spanDigits s).2 :=
  digL_spec cfg s _ c r h h.len

theorem signP_spec {cfg : Parser.Cfg} {s : Bytes} {c : Int} {r : Rd} (h : Loc cfg c r s) :
    ∃ c' r', signP cfg c r = ((Parser.takeSign s).1, c', r') ∧ Loc cfg c' r' (Parser.takeSign s).2 := by
  unfold signP
  cases s with
  | nil =>
    have hc : c = -1 := h.pk
    rw [if_neg (by rw [hc]; decide)]
    exact ⟨c, r, rfl, h⟩
  | cons b s =>
    have hb := valid_head h.2.1
    have hc : c = deliver cfg b := h.pk
    have k1 : deliver cfg b = 0x2B ↔ b = 0x2B := del_eq hb (by decide)
    have k2 : deliver cfg b = 0x2D ↔ b = 0x2D := del_eq hb (by decide)
    rw [hc, Parser.takeSign]
    by_cases hd : b = 0x2B ∨ b = 0x2D
    · rw [if_pos hd, if_pos (by rw [k1, k2]; exact hd)]
      refine ⟨_, _, ?_, loc_next h⟩
      have : b < 128 := by omega
      rw [del_small this]; rfl
    · rw [if_neg hd, if_neg (by rw [k1, k2]; exact hd)]
      subst hc
      exact ⟨_, r, rfl, h⟩

theorem fracP_spec {cfg : Parser.Cfg} {s : Bytes} {c : Int} {r : Rd} (h : Loc cfg c r s) :
    ∃ c' r', fracP cfg c r = .ok ((Parser.takeFrac s).1, c', r') ∧ Loc cfg c' r' (Parser.takeFrac s).2 := by
  unfold fracP
  cases s with
  | nil =>
    have hc : c = -1 := h.pk
    rw [if_neg (by rw [hc]; decide)]
    exact ⟨c, r, rfl, h⟩
  | cons b s =>
    have hb := valid_head h.2.1
    have hc : c = deliver cfg b := h.pk
    have k1 : deliver cfg b = 0x2E ↔ b = 0x2E := del_eq hb (by decide)
    rw [hc, Parser.takeFrac]
    by_cases hd : b = 0x2E
    · rw [if_pos hd, if_pos (k1.2 hd)]
      obtain ⟨c', r', e1, e2⟩ := dig_spec (loc_next h)
      dsimp only
      rw [e1]
      simp only [Res.bind_ok, Res.pure_eq]
      refine ⟨c', r', ?_, e2⟩
      rw [del_small (by omega)]; rfl
    · rw [if_neg hd, if_neg (fun h => hd (k1.1 h))]
      subst hc
      exact ⟨_, r, rfl, h⟩

theorem span_nil_iff {cfg : Parser.Cfg} {s : Bytes} {c : Int} {r : Rd} (h : Loc cfg c r s) :
    isDigitI c = false ↔ (Parser.spanDigits s).1 = [] := by
  cases s with
  | nil => rw [h.pk, pk]; decide
  | cons b s =>
    rw [h.pk, pk, dig_del (valid_head h.2.1), Parser.spanDigits]
    cases hd : Parser.isDigit b
    · simp
    · simp

theorem precise_spec {cfg : Parser.Cfg} {s : Bytes} {b : Nat} {r : Rd} (h : Ld cfg r (b :: s)) :
    match Parser.parsePrecise (b :: s) with
    | .ok p => ∃ r', precise cfg r = .ok ((p.1, p.2.1), r') ∧ Ld cfg r' p.2.2
    | .err => precise cfg r = .err
    | _ => True := by
  unfold precise Parser.parsePrecise
  dsimp only
  rw [nextCommit_spec h]
  dsimp only
  have hU := commit_spec h
  have hL : Loc cfg (deliver cfg b) (commit r) (b :: s) := by
    refine ⟨rfl, h.2.1, Or.inr ⟨b, ?_, rfl, hU.2.2.2⟩⟩
    rw [show (putBack (deliver cfg b) (commit r)).src = s from hU.2.2.1]
  obtain ⟨c1, r1, e1, l1⟩ := signP_spec hL
  rw [e1]
  dsimp only
  generalize Parser.takeSign (b :: s) = sg at l1 ⊢
  obtain ⟨c2, r2, e2, l2⟩ := dig_spec l1
  have k := span_nil_iff l1
  generalize Parser.spanDigits sg.2 = ds at e2 l2 k ⊢
  by_cases hz : ds.1 = []
  · rw [if_pos hz, if_pos (k.2 hz)]
  · rw [if_neg hz, if_neg (fun h => hz (k.1 h)), e2]
    simp only [Res.bind_ok]
    obtain ⟨c3, r3, e3, l3⟩ := fracP_spec l2
    rw [e3]
    simp only [Res.bind_ok]
    generalize Parser.takeFrac ds.2 = fr at l3 ⊢
    obtain ⟨ft, fs⟩ := fr
    dsimp only at l3 ⊢
    cases fs with
    | nil =>
      have hc : c3 = -1 := l3.pk
      rw [if_neg (by rw [hc]; decide)]
      exact ⟨_, rfl, l3⟩
    | cons x t =>
      have hx := valid_head l3.2.1
      have hc : c3 = deliver cfg x := l3.pk
      have k1 : c3 = 0x65 ↔ x = 0x65 := by rw [hc]; exact del_eq hx (by decide)
      have k2 : c3 = 0x45 ↔ x = 0x45 := by rw [hc]; exact del_eq hx (by decide)
      dsimp only
      by_cases hd : x = 0x65 ∨ x = 0x45
      · rw [if_pos hd, if_pos (c := c3 = 0x65 ∨ c3 = 0x45) (by rw [k1, k2]; exact hd)]
        obtain ⟨c4, r4, e4, l4⟩ := signP_spec (loc_next l3)
        rw [e4]
        dsimp only
        generalize Parser.takeSign t = es at l4 ⊢
        obtain ⟨c5, r5, e5, l5⟩ := dig_spec l4
        have k' := span_nil_iff l4
        generalize Parser.spanDigits es.2 = ed at e5 l5 k' ⊢
        by_cases hz' : ed.1 = []
        · rw [if_pos hz', if_pos (k'.2 hz')]
        · rw [if_neg hz', if_neg (fun h => hz' (k'.1 h)), e5]
          simp only [Res.bind_ok, Res.pure_eq]
          refine ⟨_, ?_, l5⟩
          rw [hc, del_small (by omega)]; rfl
      · rw [if_neg hd, if_neg (by rw [k1, k2]; exact hd)]
        exact ⟨_, rfl, l3⟩

theorem number_spec {cfg : Parser.Cfg} (hm : ∀ a b, a ≤ b → cfg.tooLong a = true → cfg.tooLong b = true) {s : Bytes} {b : Nat}
    {r : Rd} (h : Ld cfg r (b :: s)) : Sim (Ld cfg) (parseNumber cfg r) (Parser.parseNumber cfg (b :: s)) := by
  unfold parseNumber Parser.parseNumber
  by_cases hp : cfg.precise = true
  · rw [if_pos hp, if_pos hp]
    have hq := precise_spec h
    cases hy : Parser.parsePrecise (b :: s) with
    | ok p =>
      rw [hy] at hq
      obtain ⟨r', e1, e2⟩ := hq
      rw [e1]
      exact ⟨_, rfl, e2⟩
    | err => rw [hy] at hq; dsimp only at hq; rw [hq]; exact rfl
    | ub => exact trivial
    | abort => exact trivial
    | fuel => exact trivial
  · rw [if_neg hp, if_neg hp]
    dsimp only
    obtain ⟨h3, h4⟩ := readSign_spec (cfg := cfg) (Or.inr h)
    obtain ⟨h5, h6⟩ := next_spec h4
    rw [h5, h3]
    generalize Parser.readSign (b :: s) = sg at h4 h5 h6 ⊢
    obtain ⟨ng, t⟩ := sg
    dsimp only at h4 h5 h6 ⊢
    cases t with
    | nil => rw [pk, if_neg (by decide)]; exact rfl
    | cons d t =>
      have hd := valid_head h4.valid
      have k1 : deliver cfg d = 0x2E ↔ d = 0x2E := del_eq hd (by decide)
      rw [pk, dig_del hd]
      simp only [k1]
      by_cases c2 : Parser.isDigit d = true ∨ d = 0x2E
      · rw [if_pos c2, if_pos c2]
        obtain ⟨r', m, e1, e2, -, -⟩ := uns_spec (Or.inr h6)
        rw [e1]
        simp only [Res.bind_ok]
        obtain ⟨h7, h8⟩ := next_spec (Or.inr e2)
        rw [h7]
        generalize Parser.parseUnsigned 0 (d :: t) = u at e2 h7 h8 ⊢
        obtain ⟨u1, u2, u3⟩ := u
        dsimp only at e2 h7 h8 ⊢
        have k3 : (pk cfg u3 = 0x2E) ↔ u3.head? = some 0x2E := by
          cases u3 with
          | nil => simp [pk]
          | cons y u3 =>
            have : deliver cfg y = 0x2E ↔ y = 0x2E := del_eq (valid_head e2.2.1) (by decide)
            rw [pk, this]; simp
        have k4 : isEI (pk cfg u3) = (u3.head?.map Parser.isE).getD false := by
          cases u3 with
          | nil => simp [pk]; decide
          | cons y u3 => rw [pk, isE_del (valid_head e2.2.1)]; rfl
        rw [k4]
        simp only [k3]
        split
        · exact double_spec hm (Or.inr h8)
        · split
          · split
            · exact ⟨_, rfl, h8⟩
            · exact ⟨_, rfl, h8⟩
          · exact ⟨_, rfl, h8⟩
      · rw [if_neg c2, if_neg c2]; exact rfl

/-! ## Strings and keywords -/

theorem hex_del {cfg : Parser.Cfg} {b : Nat} (h : b < 256) : hexI (deliver cfg b) = Parser.hexDigit b := by
  unfold hexI Parser.hexDigit
  rw [dig_del h]
  by_cases hd : Parser.isDigit b = true
  · rw [if_pos hd, if_pos hd]
    have : b < 128 := by unfold Parser.isDigit at hd; simp at hd; omega
    rw [del_small this]; omega
  · rw [if_neg hd, if_neg hd]
    by_cases hs : b < 128
    · rw [del_small hs]; split <;> split <;> (try split) <;> (try split) <;> omega
    · rw [if_neg (c := 0x41 ≤ b ∧ b ≤ 0x46) (by omega), if_neg (c := 0x61 ≤ b ∧ b ≤ 0x66) (by omega),
        if_neg (by unfold deliver; split <;> omega), if_neg (by unfold deliver; split <;> omega)]

theorem unicode_nil {cfg : Parser.Cfg} (n : Nat) : ∀ (u : Nat) (r : Rd), r.src.length ≤ n → (unicodeL cfg n u r).2.src = [] := by
  induction n with
  | zero => intro u r h; rw [unicodeL]; exact List.eq_nil_of_length_eq_zero (Nat.le_zero.1 h)
  | succ n ih =>
    intro u r h
    rw [unicodeL]
    apply ih
    unfold readFast source
    split
    · rename_i e; simp [e]
    · rename_i e; rw [e] at h; simp at h ⊢; omega

theorem str_nil {cfg : Parser.Cfg} {n : Nat} {d : Utf8.Dec} {r : Rd} (h : r.src = []) : strL cfg (n + 1) d r = .err := by
  obtain ⟨r', e, -⟩ := readFast_nil (cfg := cfg) h
  rw [strL, e]
  dsimp only
  rw [if_pos rfl]

theorem simpleEsc_del {cfg : Parser.Cfg} {b : Nat} (h : b < 256) :
    Parser.simpleEsc (deliver cfg b).toNat = Parser.simpleEsc b := by
  by_cases hs : b < 128
  · rw [del_small hs]; rfl
  · have h1 : Parser.simpleEsc b = none := by unfold Parser.simpleEsc; repeat (rw [if_neg (by omega)])
    rw [h1]
    unfold deliver
    split
    · have : ((b : Int) - 256).toNat = 0 := by omega
      rw [this]; decide
    · exact h1

theorem strL_spec (cfg : Parser.Cfg) (n : Nat) : ∀ (s : Bytes) (d : Utf8.Dec) (r : Rd), Un r s → s.length < n →
    Sim Un (strL cfg n d r) (Parser.readStr cfg d s) := by
  induction n with
  | zero => intro s d r h hn; omega
  | succ n ih =>
    intro s d r h hn
    cases s with
    | nil => rw [Parser.readStr, str_nil h.2.2.1]; exact rfl
    | cons b s =>
      have hb := valid_head h.2.1
      have k1 : deliver cfg b = 0x22 ↔ b = 0x22 := del_eq hb (by decide)
      have k2 : deliver cfg b = 0x5C ↔ b = 0x5C := del_eq hb (by decide)
      have k3 := del_eof (cfg := cfg) hb
      obtain ⟨r1, e1, u1⟩ := readFast_cons (cfg := cfg) h
      simp only [List.length_cons] at hn
      rw [strL, e1, Parser.readStr.eq_def]
      dsimp only
      simp only [k1, k2, k3]
      by_cases c0 : b = 0xFF ∧ cfg.signedSrc = true
      · rw [if_pos c0, if_pos c0]; exact rfl
      rw [if_neg c0, if_neg c0]
      by_cases c1 : b = 0x22
      · rw [if_pos c1, if_pos c1]; exact ⟨_, rfl, u1⟩
      rw [if_neg c1, if_neg c1]
      by_cases c2 : b = 0x5C
      · rw [if_pos c2, if_pos c2]
        cases s with
        | nil =>
          obtain ⟨r2, e2, -⟩ := readFast_nil (cfg := cfg) u1.2.2.1
          rw [e2]; exact rfl
        | cons e s =>
          have he := valid_head u1.2.1
          have k4 : deliver cfg e = 0x75 ↔ e = 0x75 := del_eq he (by decide)
          obtain ⟨r2, e2, u2⟩ := readFast_cons (cfg := cfg) u1
          simp only [List.length_cons] at hn
          rw [e2]
          dsimp only
          simp only [k4]
          by_cases c3 : e = 0x75
          · rw [if_pos c3, if_pos c3]
            by_cases hl : s.length < 4
            · have hz := unicode_nil (cfg := cfg) 4 0 r2 (by rw [u2.2.2.1]; omega)
              obtain ⟨n, rfl⟩ : ∃ m, n = m + 1 := ⟨n - 1, by omega⟩
              rw [str_nil hz]
              match s, hl with
              | [], _ => exact rfl
              | [_], _ => exact rfl
              | [_, _], _ => exact rfl
              | [_, _, _], _ => exact rfl
            · obtain ⟨h1, h2, h3, h4, t, rfl⟩ : ∃ h1 h2 h3 h4 t, s = h1 :: h2 :: h3 :: h4 :: t := by
                rcases s with _ | ⟨h1, _ | ⟨h2, _ | ⟨h3, _ | ⟨h4, t⟩⟩⟩⟩
                · exact absurd (by simp) hl
                · exact absurd (by simp) hl
                · exact absurd (by simp) hl
                · exact absurd (by simp) hl
                · exact ⟨h1, h2, h3, h4, t, rfl⟩
              obtain ⟨q1, f1, v1⟩ := readFast_cons (cfg := cfg) u2
              obtain ⟨q2, f2, v2⟩ := readFast_cons (cfg := cfg) v1
              obtain ⟨q3, f3, v3⟩ := readFast_cons (cfg := cfg) v2
              obtain ⟨q4, f4, v4⟩ := readFast_cons (cfg := cfg) v3
              have hu : unicodeL cfg 4 0 r2 =
                  (((Parser.hexDigit h1 * 16 + Parser.hexDigit h2) * 16 + Parser.hexDigit h3) * 16 + Parser.hexDigit h4, q4) := by
                rw [unicodeL, f1, unicodeL, f2, unicodeL, f3, unicodeL, f4, unicodeL,
                  hex_del (valid_head u2.2.1), hex_del (valid_head v1.2.1), hex_del (valid_head v2.2.1),
                  hex_del (valid_head v3.2.1)]
                simp
              rw [hu]
              dsimp only
              simp only [List.length_cons] at hn
              exact Sim.bind (ih t d q4 v4 (by omega)) (fun v r s _ hr => ⟨_, rfl, hr⟩)
          · rw [if_neg c3, if_neg c3, simpleEsc_del he]
            cases Parser.simpleEsc e with
            | none => exact rfl
            | some x => exact Sim.bind (ih s d r2 u2 (by omega)) (fun v r s _ hr => ⟨_, rfl, hr⟩)
      · rw [if_neg c2, if_neg c2]
        have hx : (if deliver cfg b < 0 then (2 ^ 32 + deliver cfg b).toNat else (deliver cfg b).toNat) = cfg.ext b := by
          unfold deliver Parser.Cfg.ext
          split
          · rename_i hc
            rw [if_pos (by omega)]; omega
          · rw [if_neg (by omega)]; omega
        rw [hx]
        exact Sim.bind (ih s _ r1 u1 (by omega)) (fun v r s _ hr => ⟨_, rfl, hr⟩)

theorem str_spec {cfg : Parser.Cfg} {s : Bytes} {r : Rd} (h : Un r s) :
    Sim Un (str cfg r) (Parser.readStr cfg Utf8.Dec.init s) :=
  strL_spec cfg _ s _ r h (Any.len (cfg := cfg) (Or.inl h))

theorem kwL_spec (cfg : Parser.Cfg) (k : Bytes) : ∀ (s : Bytes) (r : Rd), (∀ x ∈ k, x < 128) → Un r s →
    match Parser.checkKw k s with
    | .ok t => ∃ r', kwL cfg k r = .ok r' ∧ Un r' t
    | .err => kwL cfg k r = .err
    | _ => True := by
  induction k with
  | nil => intro s r _ h; exact ⟨r, rfl, h⟩
  | cons k ks ih =>
    intro s r hk h
    rw [kwL]
    cases s with
    | nil =>
      obtain ⟨r2, e2, -⟩ := readFast_nil (cfg := cfg) h.2.2.1
      rw [e2, Parser.checkKw]
      dsimp only
      rw [if_neg (by omega)]
    | cons b s =>
      obtain ⟨r2, e2, u2⟩ := readFast_cons (cfg := cfg) h
      rw [e2, Parser.checkKw]
      dsimp only
      have hb := valid_head h.2.1
      have kk : deliver cfg b = (k : Int) ↔ b = k := del_eq hb (hk k (by simp))
      by_cases c : k = b
      · rw [if_pos c, if_pos (kk.2 c.symm)]
        exact ih s r2 (fun x hx => hk x (by simp [hx])) u2
      · rw [if_neg c, if_neg (fun h => c (kk.1 h).symm)]

theorem kw_spec {cfg : Parser.Cfg} {k : Nat} {ks : Bytes} {b : Nat} {s : Bytes} {r : Rd} (hk : ∀ x ∈ k :: ks, x < 128)
    (h : Ld cfg r (b :: s)) {v : JV} :
    Sim Un (kw cfg (k :: ks) r >>= fun t => pure (v, t)) (Parser.checkKw (k :: ks) (b :: s) >>= fun t => pure (v, t)) := by
  obtain ⟨h1, h2⟩ := next_spec (Or.inr h)
  rw [kw, Parser.checkKw]
  rw [h1, pk]
  have kk : deliver cfg b = (k : Int) ↔ b = k := del_eq (valid_head h.2.1) (hk k (by simp))
  by_cases c : k = b
  · rw [if_pos c, if_pos (kk.2 c.symm)]
    have hl := kwL_spec cfg ks s _ (fun x hx => hk x (by simp [hx])) (commit_spec h2)
    cases hy : Parser.checkKw ks s with
    | ok t =>
      rw [hy] at hl
      obtain ⟨r', e1, e2⟩ := hl
      rw [e1]; exact ⟨_, rfl, e2⟩
    | err => rw [hy] at hl; dsimp only at hl; rw [hl]; exact rfl
    | ub => exact trivial
    | abort => exact trivial
    | fuel => exact trivial
  · rw [if_neg c, if_neg (fun h => c (kk.1 h).symm)]; exact rfl

/-! ## Values -/

/-- How the reader is left behind a value that begins at `s`. -/
def After (cfg : Parser.Cfg) (s : Bytes) (r : Rd) (t : Bytes) : Prop := if Stream.ahead s = true then Ld cfg r t else Un r t

theorem After.any {cfg : Parser.Cfg} {s t : Bytes} {r : Rd} (h : After cfg s r t) : Any cfg r t := by
  unfold After at h
  split at h
  · exact Or.inr h
  · exact Or.inl h

theorem after_un {cfg : Parser.Cfg} {s : Bytes} {c : Nat} {t : Bytes} (hs : Parser.skipWs s = c :: t)
    (hc : ¬ (Parser.isDigit c = true ∨ c = 0x2B ∨ c = 0x2D ∨ c = 0x2E)) (r : Rd) (u : Bytes) (h : Un r u) : After cfg s r u := by
  unfold After Stream.ahead
  rw [hs]
  dsimp only
  rw [if_neg]
  · exact h
  · simpa [or_assoc] using hc

theorem after_ld {cfg : Parser.Cfg} {s : Bytes} {c : Nat} {t : Bytes} (hs : Parser.skipWs s = c :: t)
    (hc : Parser.isDigit c = true ∨ c = 0x2B ∨ c = 0x2D ∨ c = 0x2E) (r : Rd) (u : Bytes) (h : Ld cfg r u) : After cfg s r u := by
  unfold After Stream.ahead
  rw [hs]
  dsimp only
  rw [if_pos]
  · exact h
  · simpa [or_assoc] using hc

theorem parseV_spec (cfg : Parser.Cfg) (hm : ∀ a b, a ≤ b → cfg.tooLong a = true → cfg.tooLong b = true) (f : Nat) :
    (∀ F r s, Any cfg r s → f + 2 ≤ F → Sim (After cfg s) (parseV cfg F r) (Parser.parseV cfg f s)) ∧
    (∀ F r s, Ld cfg r s → f + 2 ≤ F →
      Sim Un (parseMembers cfg F (toChar (pk cfg s)) r) (Parser.parseMembers cfg f s)) ∧
    (∀ F r s, Any cfg r s → f + 2 ≤ F → Sim Un (parseItems cfg F r) (Parser.parseItems cfg f s)) := by
  induction f with
  | zero =>
    refine ⟨fun F r s _ _ => ?_, fun F r s _ _ => ?_, fun F r s _ _ => ?_⟩
    · rw [Parser.parseV]; exact trivial
    · rw [Parser.parseMembers]; exact trivial
    · rw [Parser.parseItems]; exact trivial
  | succ f ih =>
    obtain ⟨ihV, ihM, ihI⟩ := ih
    refine ⟨fun F r s h hF => ?_, fun F r s h hF => ?_, fun F r s h hF => ?_⟩
    · obtain ⟨F, rfl⟩ : ∃ m, F = m + 1 := ⟨F - 1, by omega⟩
      rw [parseV, Parser.parseV]
      obtain ⟨r1, e1, l1⟩ := nextWs_spec h
      rw [e1]
      simp only [Res.bind_ok]
      cases hs : Parser.skipWs s with
      | nil => simp only [pk]; exact rfl
      | cons b t =>
        rw [hs] at l1
        have hb := valid_head l1.2.1
        have hU := commit_spec l1
        have k7B : toChar (deliver cfg b) = 0x7B ↔ b = 0x7B := char_eq hb (by decide)
        have k5B : toChar (deliver cfg b) = 0x5B ↔ b = 0x5B := char_eq hb (by decide)
        have k22 : toChar (deliver cfg b) = 0x22 ↔ b = 0x22 := char_eq hb (by decide)
        have k74 : toChar (deliver cfg b) = 0x74 ↔ b = 0x74 := char_eq hb (by decide)
        have k66 : toChar (deliver cfg b) = 0x66 ↔ b = 0x66 := char_eq hb (by decide)
        have k6E : toChar (deliver cfg b) = 0x6E ↔ b = 0x6E := char_eq hb (by decide)
        have k2B : toChar (deliver cfg b) = 0x2B ↔ b = 0x2B := char_eq hb (by decide)
        have k2D : toChar (deliver cfg b) = 0x2D ↔ b = 0x2D := char_eq hb (by decide)
        have k2E : toChar (deliver cfg b) = 0x2E ↔ b = 0x2E := char_eq hb (by decide)
        simp only [pk, k7B, k5B, k22, k74, k66, k6E, k2B, k2D, k2E, dig_char hb]
        by_cases c1 : b = 0x7B
        · have hA := after_un (cfg := cfg) hs (by subst c1; decide)
          rw [if_pos c1, if_pos c1]
          obtain ⟨r2, e2, l2⟩ := nextWs_spec (cfg := cfg) (Or.inl hU)
          rw [e2]
          simp only [Res.bind_ok]
          cases ht : Parser.skipWs t with
          | nil =>
            obtain ⟨F, rfl⟩ : ∃ m, F = m + 1 := ⟨F - 1, by omega⟩
            rw [parseMembers, pk, if_neg (by decide), if_neg (by decide)]
            exact rfl
          | cons b2 t2 =>
            rw [ht] at l2
            have kk : toChar (deliver cfg b2) = 0x7D ↔ b2 = 0x7D := char_eq (valid_head l2.2.1) (by decide)
            simp only [pk, kk]
            by_cases c2 : b2 = 0x7D
            · rw [if_pos c2, if_pos c2]
              exact ⟨_, rfl, hA _ _ (commit_spec l2)⟩
            · rw [if_neg c2, if_neg c2]
              refine Sim.bind (ihM F r2 (b2 :: t2) l2 (by omega)) ?_
              intro v r3 s3 _ h3
              unfold Parser.finishObj
              dsimp only
              split
              · exact rfl
              · exact ⟨_, rfl, hA _ _ h3⟩
        rw [if_neg c1, if_neg c1]
        by_cases c2 : b = 0x5B
        · have hA := after_un (cfg := cfg) hs (by subst c2; decide)
          rw [if_pos c2, if_pos c2]
          obtain ⟨r2, e2, l2⟩ := nextWs_spec (cfg := cfg) (Or.inl hU)
          rw [e2]
          simp only [Res.bind_ok]
          cases ht : Parser.skipWs t with
          | nil =>
            rw [ht] at l2
            obtain ⟨F, rfl⟩ : ∃ m, F = m + 2 := ⟨F - 2, by omega⟩
            obtain ⟨r3, e3, l3⟩ := nextWs_spec (Or.inr l2)
            have : Parser.skipWs [] = [] := rfl
            rw [this] at e3
            rw [pk] at e3 ⊢
            rw [if_neg (by decide), parseItems, parseV, e3]
            exact rfl
          | cons b2 t2 =>
            rw [ht] at l2
            have kk : toChar (deliver cfg b2) = 0x5D ↔ b2 = 0x5D := char_eq (valid_head l2.2.1) (by decide)
            simp only [pk, kk]
            by_cases c2 : b2 = 0x5D
            · rw [if_pos c2, if_pos c2]
              exact ⟨_, rfl, hA _ _ (commit_spec l2)⟩
            · rw [if_neg c2, if_neg c2]
              refine Sim.bind (ihI F r2 (b2 :: t2) (Or.inr l2) (by omega)) ?_
              intro v r3 s3 _ h3
              exact ⟨_, rfl, hA _ _ h3⟩
        rw [if_neg c2, if_neg c2]
        by_cases c3 : b = 0x22
        · have hA := after_un (cfg := cfg) hs (by subst c3; decide)
          rw [if_pos c3, if_pos c3]
          exact Sim.bind (str_spec hU) (fun v r s _ hr => ⟨_, rfl, hA _ _ hr⟩)
        rw [if_neg c3, if_neg c3]
        by_cases c4 : b = 0x74
        · have hA := after_un (cfg := cfg) hs (by subst c4; decide)
          rw [if_pos c4, if_pos c4]
          exact (kw_spec (k := 0x74) (ks := [0x72, 0x75, 0x65]) (by decide) l1).mono hA
        rw [if_neg c4, if_neg c4]
        by_cases c5 : b = 0x66
        · have hA := after_un (cfg := cfg) hs (by subst c5; decide)
          rw [if_pos c5, if_pos c5]
          exact (kw_spec (k := 0x66) (ks := [0x61, 0x6C, 0x73, 0x65]) (by decide) l1).mono hA
        rw [if_neg c5, if_neg c5]
        by_cases c6 : b = 0x6E
        · have hA := after_un (cfg := cfg) hs (by subst c6; decide)
          rw [if_pos c6, if_pos c6]
          exact (kw_spec (k := 0x6E) (ks := [0x75, 0x6C, 0x6C]) (by decide) l1).mono hA
        rw [if_neg c6, if_neg c6]
        by_cases c7 : Parser.isDigit b = true ∨ b = 0x2B ∨ b = 0x2D ∨ b = 0x2E
        · rw [if_pos c7, if_pos c7]
          exact (number_spec hm l1).mono (after_ld hs c7)
        · rw [if_neg c7, if_neg c7]; exact rfl
    · obtain ⟨F, rfl⟩ : ∃ m, F = m + 1 := ⟨F - 1, by omega⟩
      cases s with
      | nil => rw [parseMembers, Parser.parseMembers, pk, if_neg (by decide)]; exact rfl
      | cons q s =>
        have kq : toChar (deliver cfg q) = 0x22 ↔ q = 0x22 := char_eq (valid_head h.2.1) (by decide)
        rw [parseMembers, Parser.parseMembers, pk]
        simp only [kq]
        by_cases c1 : q = 0x22
        · rw [if_pos c1, if_pos c1]
          refine Sim.bind (str_spec (commit_spec h)) ?_
          intro k r1 s1 _ h1
          obtain ⟨r2, e2, l2⟩ := nextWs_spec (cfg := cfg) (Or.inl h1)
          dsimp only
          rw [e2]
          simp only [Res.bind_ok]
          cases hs : Parser.skipWs s1 with
          | nil => rw [pk, if_neg (by decide)]; exact rfl
          | cons b2 s2 =>
            rw [hs] at l2
            have kk : toChar (deliver cfg b2) = 0x3A ↔ b2 = 0x3A := char_eq (valid_head l2.2.1) (by decide)
            simp only [pk, kk]
            by_cases c2 : b2 = 0x3A
            · rw [if_pos c2, if_pos c2]
              refine Sim.bind (ihV F _ s2 (Or.inl (commit_spec l2)) (by omega)) ?_
              intro v r3 s3 _ h3
              obtain ⟨r4, e4, l4⟩ := nextWs_spec h3.any
              dsimp only
              rw [e4]
              simp only [Res.bind_ok]
              cases hs4 : Parser.skipWs s3 with
              | nil => rw [pk, if_neg (by decide), if_neg (by decide)]; exact rfl
              | cons b4 s4 =>
                rw [hs4] at l4
                have k1 : toChar (deliver cfg b4) = 0x7D ↔ b4 = 0x7D := char_eq (valid_head l4.2.1) (by decide)
                have k2 : toChar (deliver cfg b4) = 0x2C ↔ b4 = 0x2C := char_eq (valid_head l4.2.1) (by decide)
                simp only [pk, k1, k2]
                by_cases c4 : b4 = 0x7D
                · rw [if_pos c4, if_pos c4]; exact ⟨_, rfl, commit_spec l4⟩
                rw [if_neg c4, if_neg c4]
                by_cases c5 : b4 = 0x2C
                · rw [if_pos c5, if_pos c5]
                  obtain ⟨r5, e5, l5⟩ := nextWs_spec (cfg := cfg) (Or.inl (commit_spec l4))
                  rw [e5]
                  simp only [Res.bind_ok]
                  refine Sim.bind (ihM F r5 _ l5 (by omega)) ?_
                  intro m r6 s6 _ h6
                  exact ⟨_, rfl, h6⟩
                · rw [if_neg c5, if_neg c5]; exact rfl
            · rw [if_neg c2, if_neg c2]; exact rfl
        · rw [if_neg c1, if_neg c1]; exact rfl
    · obtain ⟨F, rfl⟩ : ∃ m, F = m + 1 := ⟨F - 1, by omega⟩
      rw [parseItems, Parser.parseItems]
      refine Sim.bind (ihV F r s h (by omega)) ?_
      intro v r3 s3 _ h3
      obtain ⟨r4, e4, l4⟩ := nextWs_spec h3.any
      dsimp only
      rw [e4]
      simp only [Res.bind_ok]
      cases hs4 : Parser.skipWs s3 with
      | nil => rw [pk, if_neg (by decide), if_neg (by decide)]; exact rfl
      | cons b4 s4 =>
        rw [hs4] at l4
        have k1 : toChar (deliver cfg b4) = 0x5D ↔ b4 = 0x5D := char_eq (valid_head l4.2.1) (by decide)
        have k2 : toChar (deliver cfg b4) = 0x2C ↔ b4 = 0x2C := char_eq (valid_head l4.2.1) (by decide)
        simp only [pk, k1, k2]
        by_cases c4 : b4 = 0x5D
        · rw [if_pos c4, if_pos c4]; exact ⟨_, rfl, commit_spec l4⟩
        rw [if_neg c4, if_neg c4]
        by_cases c5 : b4 = 0x2C
        · rw [if_pos c5, if_pos c5]
          refine Sim.bind (ihI F _ _ (Or.inl (commit_spec l4)) (by omega)) ?_
          intro m r6 s6 _ h6
          exact ⟨_, rfl, h6⟩
        · rw [if_neg c5, if_neg c5]; exact rfl

end Imt.Reader
