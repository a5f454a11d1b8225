import Verif.Lemmas.CompressSync
import Verif.Spec.Utf8
import Mathlib.Data.List.Perm.Subperm
/-!
# C50, C51, C90, C91: stream compression
-/
namespace Imt.Props
open Imt Imt.Compr

set_option maxRecDepth 8000

/-! ### Bytes and symbols -/

/-- Lead byte `c` of a sequence with `n` continuation bytes, and the symbol of its low bits. -/
def LeadByte (c n low : Nat) : Prop :=
  (n = 1 ∧ 0xC0 ≤ c ∧ c ≤ 0xDF ∧ low = c - 0xC0) ∨ (n = 2 ∧ 0xE0 ≤ c ∧ c ≤ 0xEF ∧ low = c - 0xE0) ∨
  (n = 3 ∧ 0xF0 ≤ c ∧ c ≤ 0xF7 ∧ low = c - 0xF0) ∨ (n = 4 ∧ 0xF8 ≤ c ∧ c ≤ 0xFB ∧ low = c - 0xF0)

/-- Symbols of a text. -/
inductive Txt : Bytes → List Nat → Prop
  | nil : Txt [] []
  | ascii {c : Nat} {l s : List Nat} : 32 ≤ c → c < 128 → Txt l s → Txt (c :: l) ((c - codeShift) :: s)
  | seq {c n low : Nat} {cont l s : List Nat} : LeadByte c n low → cont.length = n → (∀ b ∈ cont, 0x80 ≤ b ∧ b ≤ 0xBF) → Txt l s →
      Txt (c :: (cont ++ l)) (n :: low :: (cont.map (· - 0x80) ++ s))

theorem txt_of_utf8 {l : Bytes} (h : Spec.WellFormedUtf8 l) : (∀ b ∈ l, 32 ≤ b) → ∃ s, Txt l s := by
  have conv : ∀ {b : Nat}, Spec.inR b 0x80 0xBF → 0x80 ≤ b ∧ b ≤ 0xBF := id
  induction h with
  | nil => exact fun _ => ⟨_, .nil⟩
  | one ha _ ih =>
    intro hb
    obtain ⟨s, hs⟩ := ih (fun b h => hb b (List.mem_cons_of_mem _ h))
    exact ⟨_, .ascii (hb _ List.mem_cons_self) (by have := ha.2; omega) hs⟩
  | @two a b r ha hb1 _ ih =>
    intro hb
    obtain ⟨s, hs⟩ := ih (fun b h => hb b (by simp [h]))
    refine ⟨_, .seq (n := 1) (low := a - 0xC0) (cont := [b]) (.inl ⟨rfl, by have := ha.1; omega, by have := ha.2; omega, rfl⟩) rfl ?_ hs⟩
    simpa using hb1
  | @three1 b c r h1 h2 _ ih =>
    intro hb
    obtain ⟨s, hs⟩ := ih (fun b h => hb b (by simp [h]))
    refine ⟨_, .seq (n := 2) (low := 0xE0 - 0xE0) (cont := [b, c]) (.inr (.inl ⟨rfl, by omega, by omega, rfl⟩)) rfl ?_ hs⟩
    have := h1.1; have := h1.2; have := h2.1; have := h2.2
    simp; omega
  | @three2 a b c r h0 h1 h2 _ ih =>
    intro hb
    obtain ⟨s, hs⟩ := ih (fun b h => hb b (by simp [h]))
    have := h0.1; have := h0.2
    refine ⟨_, .seq (n := 2) (low := a - 0xE0) (cont := [b, c]) (.inr (.inl ⟨rfl, by omega, by omega, rfl⟩)) rfl ?_ hs⟩
    have := h1.1; have := h1.2; have := h2.1; have := h2.2
    simp; omega
  | @three3 b c r h1 h2 _ ih =>
    intro hb
    obtain ⟨s, hs⟩ := ih (fun b h => hb b (by simp [h]))
    refine ⟨_, .seq (n := 2) (low := 0xED - 0xE0) (cont := [b, c]) (.inr (.inl ⟨rfl, by omega, by omega, rfl⟩)) rfl ?_ hs⟩
    have := h1.1; have := h1.2; have := h2.1; have := h2.2
    simp; omega
  | @three4 a b c r h0 h1 h2 _ ih =>
    intro hb
    obtain ⟨s, hs⟩ := ih (fun b h => hb b (by simp [h]))
    have := h0.1; have := h0.2
    refine ⟨_, .seq (n := 2) (low := a - 0xE0) (cont := [b, c]) (.inr (.inl ⟨rfl, by omega, by omega, rfl⟩)) rfl ?_ hs⟩
    have := h1.1; have := h1.2; have := h2.1; have := h2.2
    simp; omega
  | @four1 b c d r h1 h2 h3 _ ih =>
    intro hb
    obtain ⟨s, hs⟩ := ih (fun b h => hb b (by simp [h]))
    refine ⟨_, .seq (n := 3) (low := 0xF0 - 0xF0) (cont := [b, c, d]) (.inr (.inr (.inl ⟨rfl, by omega, by omega, rfl⟩))) rfl ?_ hs⟩
    have := h1.1; have := h1.2; have := h2.1; have := h2.2; have := h3.1; have := h3.2
    simp; omega
  | @four2 a b c d r h0 h1 h2 h3 _ ih =>
    intro hb
    obtain ⟨s, hs⟩ := ih (fun b h => hb b (by simp [h]))
    have := h0.1; have := h0.2
    refine ⟨_, .seq (n := 3) (low := a - 0xF0) (cont := [b, c, d]) (.inr (.inr (.inl ⟨rfl, by omega, by omega, rfl⟩))) rfl ?_ hs⟩
    have := h1.1; have := h1.2; have := h2.1; have := h2.2; have := h3.1; have := h3.2
    simp; omega
  | @four3 b c d r h1 h2 h3 _ ih =>
    intro hb
    obtain ⟨s, hs⟩ := ih (fun b h => hb b (by simp [h]))
    refine ⟨_, .seq (n := 3) (low := 0xF4 - 0xF0) (cont := [b, c, d]) (.inr (.inr (.inl ⟨rfl, by omega, by omega, rfl⟩))) rfl ?_ hs⟩
    have := h1.1; have := h1.2; have := h2.1; have := h2.2; have := h3.1; have := h3.2
    simp; omega

theorem txt_syms {l : Bytes} {s : List Nat} (h : Txt l s) : ∀ x ∈ s, x < firstCode := by
  have hF : firstCode = 102 := rfl
  have hS : codeShift = 26 := rfl
  induction h with
  | nil => intro x hx; cases hx
  | ascii h1 h2 _ ih =>
    intro x hx
    rcases List.mem_cons.1 hx with rfl | hx
    · omega
    · exact ih x hx
  | seq h1 h2 h3 _ ih =>
    intro x hx
    unfold LeadByte at h1
    rcases List.mem_cons.1 hx with rfl | hx
    · omega
    rcases List.mem_cons.1 hx with rfl | hx
    · omega
    rcases List.mem_append.1 hx with hx | hx
    · obtain ⟨b, hb, rfl⟩ := List.mem_map.1 hx
      have := h3 b hb
      omega
    · exact ih x hx

theorem txt_nil {s : List Nat} (h : Txt [] s) : s = [] := by cases h; rfl

theorem txt_ne {c : Nat} {l s : List Nat} (h : Txt (c :: l) s) : ∃ x t, s = x :: t := by
  cases h with
  | ascii => exact ⟨_, _, rfl⟩
  | seq => exact ⟨_, _, rfl⟩

/-! ### The compressor and `utf8len` -/

/-- The compressor with other `utf8len`. -/
def cu (n : Nat) (c : Comp) : Comp := { c with utf8len := n }

/-- The decompressor with other `utf8len`. -/
def du (n : Nat) (d : Dec) : Dec := { d with utf8len := n }

theorem addCode_cu (c : Comp) (k : Nat × Nat) (n : Nat) : addCode (cu n c) k = (addCode c k >>= fun c' => .ok (cu n c')) := by
  obtain ⟨db, nc, ls, ln, ndb, nn, u, o⟩ := c
  unfold addCode cu
  dsimp only
  split
  · cases ln <;> rfl
  · rfl

theorem compressSym_cu {c c' : Comp} {x : Nat} (h : compressSym c x = .ok c') (n : Nat) : compressSym (cu n c) x = .ok (cu n c') := by
  unfold compressSym at h ⊢
  split at h
  · cases h
  rename_i hx
  rw [if_neg hx]
  change (match c.lastSeq with | none => _ | some q => _) = _
  cases hs : c.lastSeq with
  | none =>
    rw [hs] at h
    simp only [Res.ok.injEq] at h
    subst h
    rfl
  | some q =>
    rw [hs] at h
    dsimp only at h ⊢
    change (match cfind c.db (q, x) with | none => _ | some i => _) = _
    cases hf : cfind c.db (q, x) with
    | none =>
      rw [hf] at h
      simp only [Res.ok.injEq] at h
      subst h
      rfl
    | some i =>
      rw [hf] at h
      dsimp only at h ⊢
      split
      · rename_i hi
        rw [if_pos hi] at h
        simp only [Res.ok.injEq] at h
        subst h
        rfl
      · rename_i hi
        rw [if_neg hi] at h
        unfold advance at h ⊢
        cases hu : i.used with
        | true =>
          rw [hu] at h
          simp only [if_true, Res.bind_ok, Res.ok.injEq] at h ⊢
          subst h
          rfl
        | false =>
          rw [hu] at h
          simp only [Bool.false_eq_true, if_false] at h ⊢
          rw [addCode_cu]
          cases ha : addCode c (q, x) with
          | ok c1 =>
            rw [ha] at h
            simp only [Res.bind_ok, Res.ok.injEq] at h ⊢
            subst h
            rfl
          | err => rw [ha] at h; cases h
          | ub => rw [ha] at h; cases h
          | abort => rw [ha] at h; cases h
          | fuel => rw [ha] at h; cases h

theorem compressSyms_append (a : List Nat) : ∀ {c c' : Comp} {b : List Nat}, compressSyms c (a ++ b) = .ok c' →
    ∃ c1, compressSyms c a = .ok c1 ∧ compressSyms c1 b = .ok c' := by
  induction a with
  | nil => intro c c' b h; exact ⟨c, rfl, h⟩
  | cons x a ih =>
    intro c c' b h
    rw [List.cons_append, compressSyms.eq_def] at h
    rw [compressSyms.eq_def c (x :: a)]
    dsimp only at h ⊢
    cases hx : compressSym c x with
    | ok c1 =>
      rw [hx] at h
      simp only [Res.bind_ok] at h ⊢
      exact ih h
    | err => rw [hx] at h; cases h
    | ub => rw [hx] at h; cases h
    | abort => rw [hx] at h; cases h
    | fuel => rw [hx] at h; cases h

theorem compressSyms_cons {c c' : Comp} {x : Nat} {l : List Nat} (h : compressSyms c (x :: l) = .ok c') :
    ∃ c1, compressSym c x = .ok c1 ∧ compressSyms c1 l = .ok c' := by
  unfold compressSyms at h
  cases hx : compressSym c x with
  | ok c1 => rw [hx] at h; exact ⟨c1, rfl, h⟩
  | err => rw [hx] at h; cases h
  | ub => rw [hx] at h; cases h
  | abort => rw [hx] at h; cases h
  | fuel => rw [hx] at h; cases h

theorem putAll_cont (cont : Bytes) : ∀ {c c' : Comp} (l : Bytes), (∀ b ∈ cont, 0x80 ≤ b ∧ b ≤ 0xBF) →
    compressSyms c (cont.map (· - 0x80)) = .ok c' → putAll (cu cont.length c) (cont ++ l) = putAll (cu 0 c') l := by
  induction cont with
  | nil => intro c c' l _ h; cases h; rfl
  | cons b cont ih =>
    intro c c' l hb h
    obtain ⟨c1, h1, h2⟩ := compressSyms_cons h
    have hbb := hb b List.mem_cons_self
    have hand : b &&& 0x7F = b - 0x80 := by
      have : ∀ b, b < 256 → 0x80 ≤ b → b &&& 0x7F = b - 0x80 := by decide
      exact this b (by omega) hbb.1
    show (put (cu (cont.length + 1) c) b >>= fun s => putAll s (cont ++ l)) = _
    have hput : put (cu (cont.length + 1) c) b = .ok (cu cont.length c1) := by
      unfold put
      rw [if_pos (show (cu (cont.length + 1) c).utf8len ≠ 0 from Nat.succ_ne_zero _), hand]
      exact compressSym_cu h1 cont.length
    rw [hput]
    exact ih l (fun b h => hb b (List.mem_cons_of_mem _ h)) h2

theorem put_lead {c c1 c2 : Comp} {b n low : Nat} (hl : LeadByte b n low) (h1 : compressSym c n = .ok c1) (h2 : compressSym c1 low = .ok c2) :
    put (cu 0 c) b = .ok (cu n c2) := by
  have b1 : ∀ b, b < 256 → 0xC0 ≤ b → b &&& 0x80 ≠ 0 := by decide
  have b2 : ∀ b, b < 256 → 0xC0 ≤ b → b ≤ 0xDF → b &&& 0xE0 = 0xC0 ∧ b &&& 0x3F = b - 0xC0 := by decide
  have b3 : ∀ b, b < 256 → 0xE0 ≤ b → b &&& 0xE0 ≠ 0xC0 := by decide
  have b4 : ∀ b, b < 256 → 0xE0 ≤ b → b ≤ 0xEF → b &&& 0xF0 = 0xE0 ∧ b &&& 0x1F = b - 0xE0 := by decide
  have b5 : ∀ b, b < 256 → 0xF0 ≤ b → b &&& 0xF0 ≠ 0xE0 := by decide
  have b6 : ∀ b, b < 256 → 0xF0 ≤ b → b ≤ 0xF7 → b &&& 0xF8 = 0xF0 ∧ b &&& 0x0F = b - 0xF0 := by decide
  have b7 : ∀ b, b < 256 → 0xF8 ≤ b → b &&& 0xF8 ≠ 0xF0 := by decide
  have b8 : ∀ b, b < 256 → 0xF8 ≤ b → b ≤ 0xFB → b &&& 0xFC = 0xF8 ∧ b &&& 0x0F = b - 0xF0 := by decide
  unfold LeadByte at hl
  have hb : b < 256 := by omega
  replace b1 := b1 b hb (by omega)
  replace b2 := b2 b hb (by omega)
  replace b3 := b3 b hb
  replace b4 := b4 b hb
  replace b5 := b5 b hb
  replace b6 := b6 b hb
  replace b7 := b7 b hb
  replace b8 := b8 b hb
  have h2c : compress2 (cu 0 c) n low n = .ok (cu n c2) := by
    unfold compress2
    rw [compressSym_cu h1 0]
    simp only [Res.bind_ok]
    rw [compressSym_cu h2 0]
    rfl
  unfold put
  rw [if_neg (show ¬ ((cu 0 c).utf8len ≠ 0) from fun h => h rfl), if_pos b1]
  rcases hl with ⟨rfl, e1, e2, rfl⟩ | ⟨rfl, e1, e2, rfl⟩ | ⟨rfl, e1, e2, rfl⟩ | ⟨rfl, e1, e2, rfl⟩
  · rw [if_pos (b2 e2).1, (b2 e2).2]; exact h2c
  · rw [if_neg (b3 (by omega)), if_pos (b4 e1 e2).1, (b4 e1 e2).2]; exact h2c
  · rw [if_neg (b3 (by omega)), if_neg (b5 (by omega)), if_pos (b6 e1 e2).1, (b6 e1 e2).2]; exact h2c
  · rw [if_neg (b3 (by omega)), if_neg (b5 (by omega)), if_neg (b7 (by omega)), if_pos (b8 e1 e2).1, (b8 e1 e2).2]; exact h2c

theorem putAll_txt {l : Bytes} {s : List Nat} (h : Txt l s) : ∀ {c c' : Comp}, compressSyms c s = .ok c' → putAll (cu 0 c) l = .ok (cu 0 c') := by
  induction h with
  | nil => intro c c' h; cases h; rfl
  | @ascii b l s h1 h2 _ ih =>
    intro c c' h
    obtain ⟨c1, e1, e2⟩ := compressSyms_cons h
    show (put (cu 0 c) b >>= fun s => putAll s l) = _
    have hb : b &&& 0x80 = 0 := by
      have : ∀ b, b < 128 → b &&& 0x80 = 0 := by decide
      exact this b h2
    have hput : put (cu 0 c) b = .ok (cu 0 c1) := by
      unfold put
      rw [if_neg (show ¬ ((cu 0 c).utf8len ≠ 0) from fun h => h rfl), if_neg (by rw [hb]; simp), if_neg (by omega)]
      exact compressSym_cu e1 0
    rw [hput]
    exact ih e2
  | @seq b n low cont l s h1 h2 h3 _ ih =>
    intro c c' h
    obtain ⟨c1, e1, h⟩ := compressSyms_cons h
    obtain ⟨c2, e2, h⟩ := compressSyms_cons h
    obtain ⟨c3, e3, e4⟩ := compressSyms_append _ h
    show (put (cu 0 c) b >>= fun s => putAll s (cont ++ l)) = _
    rw [put_lead h1 e1 e2]
    simp only [Res.bind_ok]
    rw [← h2, putAll_cont cont l h3 e3]
    exact ih e4

/-! ### The decompressor gives the bytes -/

theorem decomp_du {d d1 : Dec} {c : Nat} (h : ∀ n, decomp { d with utf8len := n } = .ok (c, { d1 with utf8len := n })) (n : Nat) :
    decomp (du n d) = .ok (c, du n d1) := h n

theorem yields_cons {d e : Dec} {c : Nat} {l : List Nat} (h : Yields d (c :: l) e) : ∃ d1,
    (∀ n, decomp (du n d) = .ok (c, du n d1)) ∧ Yields d1 l e := by
  cases h with
  | cons h1 h2 => exact ⟨_, h1, h2⟩

theorem yields_append (a : List Nat) : ∀ {b : List Nat} {d e : Dec}, Yields d (a ++ b) e → ∃ d1, Yields d a d1 ∧ Yields d1 b e := by
  induction a with
  | nil => intro b d e h; exact ⟨d, .nil, h⟩
  | cons x a ih =>
    intro b d e h
    cases h with
    | cons h1 h2 =>
      obtain ⟨d1, a1, a2⟩ := ih h2
      exact ⟨d1, .cons h1 a1, a2⟩

/-- One character then the rest. -/
theorem getAll_step {d d1 : Dec} {c : Nat} (h : get d = .ok (c, d1)) (hc : c ≠ 255) (k : Nat) :
    getAll (k + 1) d = (getAll k d1 >>= fun r => .ok (c :: r.1, r.2)) := by
  rw [getAll.eq_def]
  dsimp only
  rw [h]
  simp only [Res.bind_ok]
  rw [if_neg hc]

theorem get_cont {d d1 : Dec} {c n : Nat} (h : ∀ n, decomp (du n d) = .ok (c, du n d1)) : get (du (n + 1) d) = .ok (c ||| 0x80, du n d1) := by
  unfold Compr.get
  rw [h (n + 1)]
  rfl

/-- Prepend. -/
def pre (l : Bytes) (r : Bytes × Dec) : Res (Bytes × Dec) := .ok (l ++ r.1, r.2)

theorem bind_pre {x : Res (Bytes × Dec)} (a b : Bytes) : ((x >>= pre b) >>= pre a) = (x >>= pre (a ++ b)) := by
  cases x <;> simp [pre, bind, Res.bind]

theorem getAll_step' {d d1 : Dec} {c : Nat} (h : get d = .ok (c, d1)) (hc : c ≠ 255) (k : Nat) :
    getAll (k + 1) d = (getAll k d1 >>= pre [c]) := getAll_step h hc k

theorem getAll_cont (cont : Bytes) : ∀ {d e : Dec} (k : Nat), (∀ b ∈ cont, 0x80 ≤ b ∧ b ≤ 0xBF) → Yields d (cont.map (· - 0x80)) e →
    getAll (cont.length + k) (du cont.length d) = (getAll k (du 0 e) >>= pre cont) := by
  induction cont with
  | nil =>
    intro d e k _ h
    cases h
    show getAll (0 + k) _ = _
    rw [Nat.zero_add]
    cases hx : getAll k (du 0 d) with
    | ok r => rfl
    | err => rfl
    | ub => rfl
    | abort => rfl
    | fuel => rfl
  | cons b cont ih =>
    intro d e k hb h
    obtain ⟨d1, h1, h2⟩ := yields_cons h
    have hbb := hb b List.mem_cons_self
    have hor : (b - 0x80) ||| 0x80 = b := by
      have : ∀ b, b < 256 → 0x80 ≤ b → (b - 0x80) ||| 0x80 = b := by decide
      exact this b (by omega) hbb.1
    have hget : get (du (cont.length + 1) d) = .ok (b, du cont.length d1) := by
      rw [get_cont h1, hor]
    show getAll (cont.length + 1 + k) (du (cont.length + 1) d) = _
    rw [show cont.length + 1 + k = (cont.length + k) + 1 from by omega, getAll_step' hget (by omega),
      ih k (fun b h => hb b (List.mem_cons_of_mem _ h)) h2, bind_pre]
    rfl

theorem get_lead {d d1 d2 : Dec} {b n low : Nat} (hl : LeadByte b n low) (h1 : ∀ m, decomp (du m d) = .ok (n, du m d1))
    (h2 : ∀ m, decomp (du m d1) = .ok (low, du m d2)) : get (du 0 d) = .ok (b, du n d2) := by
  have b1 : ∀ b, b < 256 → 0xC0 ≤ b → b ≤ 0xDF → (b - 0xC0) ||| 0xC0 = b := by decide
  have b2 : ∀ b, b < 256 → 0xE0 ≤ b → b ≤ 0xEF → (b - 0xE0) ||| 0xE0 = b := by decide
  have b3 : ∀ b, b < 256 → 0xF0 ≤ b → b ≤ 0xF7 → (b - 0xF0) ||| 0xF0 = b := by decide
  have b4 : ∀ b, b < 256 → 0xF8 ≤ b → b ≤ 0xFB → (b - 0xF0) ||| 0xF8 = b := by decide
  have hle : ∀ m mask, lead (du 0 d1) m mask = .ok (low ||| mask, du m d2) := by
    intro m mask
    unfold lead
    have := h2 m
    show (decomp (du m d1) >>= _) = _
    rw [this]
    rfl
  unfold LeadByte at hl
  have hb : b < 256 := by omega
  replace b1 := b1 b hb (by omega)
  replace b2 := b2 b hb
  replace b3 := b3 b hb
  replace b4 := b4 b hb
  unfold Compr.get
  rw [h1 0]
  simp only [Res.bind_ok]
  rw [if_neg (show ¬ ((du 0 d1).utf8len ≠ 0) from fun h => h rfl)]
  rcases hl with ⟨rfl, e1, e2, rfl⟩ | ⟨rfl, e1, e2, rfl⟩ | ⟨rfl, e1, e2, rfl⟩ | ⟨rfl, e1, e2, rfl⟩
  · rw [if_neg (by decide), if_pos rfl, hle, b1 e2]
  · rw [if_neg (by decide), if_neg (by decide), if_pos rfl, hle, b2 e1 e2]
  · rw [if_neg (by decide), if_neg (by decide), if_neg (by decide), if_pos rfl, hle, b3 e1 e2]
  · rw [if_neg (by decide), if_neg (by decide), if_neg (by decide), if_neg (by decide), if_pos rfl, hle, b4 e1 e2]

theorem getAll_txt {l : Bytes} {s : List Nat} (h : Txt l s) : ∀ {d e : Dec} (k : Nat), Yields d s e →
    getAll (l.length + k) (du 0 d) = (getAll k (du 0 e) >>= pre l) := by
  induction h with
  | nil =>
    intro d e k h
    have := getAll_cont [] k (fun b hb => absurd hb List.not_mem_nil) (d := d) (e := e) h
    exact this
  | @ascii b l s h1 h2 _ ih =>
    intro d e k h
    obtain ⟨d1, e1, e2⟩ := yields_cons h
    have hS : codeShift = 26 := rfl
    have hget : get (du 0 d) = .ok (b, du 0 d1) := by
      unfold Compr.get
      rw [e1 0]
      simp only [Res.bind_ok]
      rw [if_neg (show ¬ ((du 0 d1).utf8len ≠ 0) from fun h => h rfl), if_neg (by omega), if_neg (by omega), if_neg (by omega),
        if_neg (by omega), if_neg (by omega)]
      rw [show (b - codeShift + codeShift) % 256 = b from by omega]
    show getAll (l.length + 1 + k) _ = _
    rw [show l.length + 1 + k = (l.length + k) + 1 from by omega, getAll_step' hget (by omega), ih k e2, bind_pre]
    rfl
  | @seq b n low cont l s h1 h2 h3 _ ih =>
    intro d e k h
    obtain ⟨d1, e1, h⟩ := yields_cons h
    obtain ⟨d2, e2, h⟩ := yields_cons h
    obtain ⟨d3, e3, e4⟩ := yields_append _ h
    have hget := get_lead h1 e1 e2
    have hb : b ≠ 255 := by unfold LeadByte at h1; omega
    show getAll ((cont ++ l).length + 1 + k) _ = _
    rw [show (cont ++ l).length + 1 + k = (cont.length + (l.length + k)) + 1 from by simp; omega, getAll_step' hget hb, ← h2,
      getAll_cont cont _ h3 e3, ih k e4, bind_pre, bind_pre]
    rfl

/-! ### C50 -/

theorem invC_nil : InvC ([], []) := by
  refine ⟨⟨?_, ?_, ?_, ?_, ?_, ?_⟩, ?_, ?_, ?_⟩
  · intro i d hd; simp at hd
  · intro i d hd; simp at hd
  · intro i d hd; simp at hd
  · intro d hd; cases hd
  · intro i d hd; simp at hd
  · intro i d n hd; simp at hd
  · intro i j d e hd; simp at hd
  · intro j e he; simp at he
  · intro q q' n h1 h2
    unfold newOf at h1 h2
    simp at h1 h2
    omega

/-- The first symbol. -/
theorem mid_first {x : Nat} (hx : x < firstCode) : Mid { lastSeq := some x, lastNew := some x } {} x [] x [] := by
  refine ⟨invC_nil, invC_nil.toInvD, ?_, rfl, .root hx, ?_, ⟨rfl, ?_, rfl, ?_⟩, rfl, ?_⟩
  · intro w hw; cases hw
  · have := firstCode_lt; omega
  · show firstCode = 0 + firstCode; omega
  · show firstCode = 0 + firstCode; omega
  · show some x = newOf _ x
    unfold newOf
    rw [if_pos hx]

theorem compress_txt {l : Bytes} {s : List Nat} (h : Txt l s) (hl : l ≠ []) : ∃ out, compressAll l = .ok out ∧
    ∀ rest, ∃ d, getAll (l.length + 1) { inp := out ++ rest } = .ok (l, d) ∧ d.inp = rest := by
  obtain ⟨b, l', rfl⟩ := List.exists_cons_of_ne_nil hl
  obtain ⟨x, t, rfl⟩ := txt_ne h
  have hs := txt_syms h
  have hx := hs x List.mem_cons_self
  obtain ⟨c', tail, a1, a2, a3, a4, a5⟩ := sync t _ _ x x [] [] (mid_first hx) (fun y hy => hs y (List.mem_cons_of_mem _ hy))
  have hfirst : compressSym {} x = .ok { lastSeq := some x, lastNew := some x } := by
    unfold compressSym
    rw [if_neg (by omega)]
  have hall : compressSyms {} (x :: t) = .ok c' := by
    unfold compressSyms
    rw [hfirst]
    exact a1
  have hput := putAll_txt h hall
  refine ⟨tail, ?_, fun rest => ?_⟩
  · unfold compressAll
    show (putAll (cu 0 {}) _ >>= _) = _
    rw [hput]
    show Res.ok (finish c') = _
    rw [a3]
    rfl
  · obtain ⟨e, e', b1, b2, b3⟩ := a5 rest _ (Arr.refl _)
    have hg := getAll_txt h 1 b1
    have hend : getAll 1 (du 0 e) = .ok ([], du 0 e') := by
      rw [getAll.eq_def]
      dsimp only
      have : get (du 0 e) = .ok (255, du 0 e') := by
        unfold Compr.get
        rw [show decomp (du 0 e) = _ from b2 0]
        rfl
      rw [this]
      rfl
    rw [hend] at hg
    refine ⟨du 0 e', ?_, b3⟩
    have hd : ({ inp := tail ++ rest } : Dec) = du 0 { inp := tail ++ rest } := rfl
    rw [hd]
    refine hg.trans ?_
    simp [pre, Res.bind_ok]

/-- **C50.** Every well-formed UTF-8 text without control characters, of any length, is compressed; a new decompressor gives the text
back, then -1. "Control characters" are those below 32; the code 127 is allowed. For a decompressor used before see C92. -/
theorem C50_round_trip (l : Bytes) (h : Spec.WellFormedUtf8 l) (hc : ∀ b ∈ l, 32 ≤ b) :
    ∃ out d, compressAll l = .ok out ∧ getAll (l.length + 1) { inp := out } = .ok (l, d) := by
  obtain ⟨s, hs⟩ := txt_of_utf8 h hc
  by_cases hl : l = []
  · subst hl
    exact ⟨[], _, rfl, rfl⟩
  · obtain ⟨out, h1, h2⟩ := compress_txt hs hl
    obtain ⟨d, h3, _⟩ := h2 []
    rw [List.append_nil] at h3
    exact ⟨out, d, h1, h3⟩

/-- **C50.** The end is found exactly: what follows a compressed text that is not empty stays in the input. -/
theorem C50_end (l : Bytes) (h : Spec.WellFormedUtf8 l) (hc : ∀ b ∈ l, 32 ≤ b) (hl : l ≠ []) (rest : Bytes) :
    ∃ out d, compressAll l = .ok out ∧ getAll (l.length + 1) { inp := out ++ rest } = .ok (l, d) ∧ d.inp = rest := by
  obtain ⟨s, hs⟩ := txt_of_utf8 h hc
  obtain ⟨out, h1, h2⟩ := compress_txt hs hl
  obtain ⟨d, h3, h4⟩ := h2 rest
  exact ⟨out, d, h1, h3, h4⟩

example : Spec.WellFormedUtf8 [0x61, 0x61, 0x61, 0x61, 0xC3, 0xA9] ∧ (∀ b ∈ [0x61, 0x61, 0x61, 0x61, 0xC3, 0xA9], 32 ≤ b) ∧
    compressAll [0x61, 0x61, 0x61, 0x61, 0xC3, 0xA9] = .ok [71, 102, 71, 1, 3, 41, 255, 255] := by
  refine ⟨.one ⟨by decide, by decide⟩ (.one ⟨by decide, by decide⟩ (.one ⟨by decide, by decide⟩ (.one ⟨by decide, by decide⟩
    (.two ⟨by decide, by decide⟩ ⟨by decide, by decide⟩ .nil)))), by decide, by rfl⟩

/-! ### C51 -/

theorem path_syms {V : List DInfo} (hw : WF V) {q c : Nat} {is syms : List Nat} (hp : Path V q is c syms) : ∀ x ∈ syms, x < firstCode := by
  induction hp with
  | root _ => intro x hx; cases hx
  | step hd _ ih =>
    intro x hx
    rcases List.mem_append.1 hx with hx | hx
    · exact ih x hx
    · rw [List.mem_singleton.1 hx]; exact (hw _ _ hd).2

/-- Memory of the decompressor is in order. -/
structure DecOk (d : Dec) : Prop where
  inv : InvD (d.db, d.ndb)
  prev : PrevOk d
  ready : ∀ x ∈ d.ready, x < firstCode

/-- A code equal to the next one, without a previous code. -/
def Orphan (d : Dec) : Prop :=
  d.ready = [] ∧ d.prev = none ∧ (readCode d.inp).1 = d.db.length + firstCode ∧ (readCode d.inp).1 ≠ flushCode ∧
    (readCode d.inp).1 ≠ optimizeCode

/-- Zero or more optimisation codes are read. -/
inductive Skips : Dec → Dec → Prop
  | refl {d : Dec} : Skips d d
  | step {d d0 : Dec} {inp : Bytes} : d.ready = [] → readCode d.inp = (optimizeCode, inp) →
      Skips { d with db := d.ndb, ndb := [], prev := none, inp := inp } d0 → Skips d d0

theorem expand_ok {d : Dec} (h : DecOk d) {cc : Nat} (hle : cc ≤ d.db.length + firstCode) (hor : ¬ (cc = d.db.length + firstCode ∧ d.prev = none)) :
    ∃ c d', expand d cc = .ok (c, d') ∧ DecOk d' ∧ c < firstCode := by
  have hpath : ∃ is c0 syms, Path (d.db ++ pend d.prev c0) cc is c0 syms := by
    by_cases hlt : cc < d.db.length + firstCode
    · obtain ⟨is, c0, syms, hp⟩ := Path.exists h.inv.wf cc hlt
      exact ⟨is, c0, syms, hp.push _⟩
    · have he : cc = d.db.length + firstCode := by omega
      cases hw : d.prev with
      | none => exact absurd ⟨he, hw⟩ hor
      | some w =>
        obtain ⟨iw, f, sw, hp, _⟩ := h.prev w hw
        subst he
        have hnew : (d.db ++ [({ prev := w, ch := f } : DInfo)])[d.db.length]? = some { prev := w, ch := f } := by simp
        exact ⟨_, f, _, Path.step hnew (hp.push _)⟩
  obtain ⟨is, c0, syms, hp⟩ := hpath
  have hc0 := path_lt hp
  have hi : InvD (d.db ++ pend d.prev c0, d.ndb) := by
    cases hw : d.prev with
    | none => simpa [pend] using h.inv
    | some w =>
      obtain ⟨iw, f, sw, hpw, _⟩ := h.prev w hw
      exact h.inv.push (path_lt_len hpw) hc0
  refine ⟨c0, _, expand_eq h.inv h.prev hp, ⟨(markPath_inv hi hp).1, ?_, path_syms hi.wf hp⟩, hc0⟩
  intro w hw
  injection hw with hw
  subst hw
  exact ⟨is, c0, syms, hp.congr (shape_markPath is _).symm, rfl⟩

theorem invD_swap {s : Dicts} (h : InvD s) : InvD (s.2, []) := by
  refine ⟨h.wfn, ?_, ?_, ?_, ?_, ?_⟩
  · intro i d hd; simp at hd
  · intro i d hd
    have := h.clean d (List.mem_of_getElem? hd)
    rw [this.1, this.2]; rfl
  · intro d hd; cases hd
  · intro i d hd hu
    rw [(h.clean d (List.mem_of_getElem? hd)).1] at hu
    cases hu
  · intro i d n hd hn
    rw [(h.clean d (List.mem_of_getElem? hd)).2] at hn
    cases hn

theorem invD_clear {s : Dicts} (h : InvD s) : InvD ([], s.2) := by
  refine ⟨?_, h.wfn, ?_, h.clean, ?_, ?_⟩
  · intro i d hd; simp at hd
  · intro i d hd; simp at hd
  · intro i d hd; simp at hd
  · intro i d n hd; simp at hd

theorem readCode_nil : readCode [] = (flushCode, []) := by decide

theorem readCode_shorter {inp : Bytes} (h : inp ≠ []) : (readCode inp).2.length < inp.length := by
  obtain ⟨b, l, rfl⟩ := List.exists_cons_of_ne_nil h
  unfold readCode nextByte
  dsimp only
  split
  · simp
  · cases l with
    | nil => simp
    | cons _ _ => simp; omega

theorem decompress_nil {fuel : Nat} {d : Dec} (hr : d.ready = []) : decompress (fuel + 1) d =
    if (readCode d.inp).1 = flushCode then .ok (255, { d with inp := (readCode d.inp).2, db := [], prev := none })
    else if (readCode d.inp).1 = optimizeCode then
      decompress fuel { d with inp := (readCode d.inp).2, db := d.ndb, ndb := [], prev := none }
    else expand { d with inp := (readCode d.inp).2 } (readCode d.inp).1 := by
  obtain ⟨db, ready, fc, prev, ndb, u, inp⟩ := d
  dsimp only at hr
  subst hr
  rw [decompress.eq_def]

/-- What `decompress` does: it succeeds with memory in order, reports an error, or there is an orphan code. -/
theorem decompress_spec (fuel : Nat) : ∀ (d : Dec), DecOk d → d.inp.length < fuel →
    ((∃ c d', decompress fuel d = .ok (c, d') ∧ DecOk d' ∧ (c = 255 ∨ c < firstCode)) ∨ decompress fuel d = .err ∨ decompress fuel d = .ub) ∧
    (decompress fuel d = .ub ↔ ∃ d0, Skips d d0 ∧ Orphan d0) := by
  induction fuel with
  | zero => intro d _ h; omega
  | succ fuel ih =>
    intro d h hlen
    cases hr : d.ready with
    | cons c r =>
      rw [decompress.eq_def]
      dsimp only
      rw [hr]
      dsimp only
      refine ⟨.inl ⟨c, _, rfl, ⟨h.inv, h.prev, ?_⟩, .inr (h.ready c (by rw [hr]; exact List.mem_cons_self))⟩, ⟨fun h => (by cases h), ?_⟩⟩
      · intro x hx
        exact h.ready x (by rw [hr]; exact List.mem_cons_of_mem _ hx)
      · rintro ⟨d0, hs, ho⟩
        cases hs with
        | refl => rw [ho.1] at hr; cases hr
        | step h1 => rw [h1] at hr; cases hr
    | nil =>
      rw [decompress_nil hr]
      have hself : ∀ {d0}, Skips d d0 → (readCode d.inp).1 ≠ optimizeCode → d0 = d := by
        intro d0 hs hne
        cases hs with
        | refl => rfl
        | step _ h2 => rw [h2] at hne; exact absurd rfl hne
      by_cases hfl : (readCode d.inp).1 = flushCode
      · rw [if_pos hfl]
        refine ⟨.inl ⟨255, _, rfl, ⟨invD_clear h.inv, ?_, ?_⟩, .inl rfl⟩, ⟨fun h => (by cases h), ?_⟩⟩
        · intro w hw; cases hw
        · intro x hx; exact h.ready x hx
        · rintro ⟨d0, hs, ho⟩
          have := hself hs (by rw [hfl]; exact fun h => optimize_code_ne h.symm)
          subst this
          exact absurd hfl ho.2.2.2.1
      · rw [if_neg hfl]
        by_cases hop : (readCode d.inp).1 = optimizeCode
        · rw [if_pos hop]
          have hne : d.inp ≠ [] := by
            intro hn
            rw [hn, readCode_nil] at hfl
            exact hfl rfl
          have hsh := readCode_shorter hne
          have hrec := ih { d with inp := (readCode d.inp).2, db := d.ndb, ndb := [], prev := none }
            ⟨invD_swap h.inv, fun w hw => (by cases hw), fun x hx => h.ready x hx⟩ (by show (readCode d.inp).2.length < fuel; omega)
          refine ⟨hrec.1, hrec.2.trans ⟨?_, ?_⟩⟩
          · rintro ⟨d0, hs, ho⟩
            exact ⟨d0, .step hr (Prod.ext hop rfl) hs, ho⟩
          · rintro ⟨d0, hs, ho⟩
            cases hs with
            | refl => exact absurd hop ho.2.2.2.2
            | step _ h2 h3 =>
              rw [h2]
              exact ⟨d0, h3, ho⟩
        · rw [if_neg hop]
          have hd' : DecOk { d with inp := (readCode d.inp).2 } := ⟨h.inv, h.prev, h.ready⟩
          by_cases hor : (readCode d.inp).1 = d.db.length + firstCode ∧ d.prev = none
          · have hub : expand { d with inp := (readCode d.inp).2 } (readCode d.inp).1 = .ub := by
              unfold expand
              rw [if_pos hor.1]
              dsimp only
              rw [hor.2]
              cases d.firstChar <;> rfl
            exact ⟨.inr (.inr hub), ⟨fun _ => ⟨d, .refl, hr, hor.2, hor.1, hfl, hop⟩, fun _ => hub⟩⟩
          · have hno : ¬ ∃ d0, Skips d d0 ∧ Orphan d0 := by
              rintro ⟨d0, hs, ho⟩
              have := hself hs hop
              subst this
              exact hor ⟨ho.2.2.1, ho.2.1⟩
            by_cases hle : (readCode d.inp).1 ≤ d.db.length + firstCode
            · obtain ⟨c, d', e1, e2, e3⟩ := expand_ok hd' hle hor
              refine ⟨.inl ⟨c, d', e1, e2, .inr e3⟩, ⟨fun h => ?_, fun h => absurd h hno⟩⟩
              rw [e1] at h; cases h
            · have herr : expand { d with inp := (readCode d.inp).2 } (readCode d.inp).1 = .err := by
                unfold expand
                dsimp only
                rw [if_neg (by omega), if_pos (by omega)]
              refine ⟨.inr (.inl herr), ⟨fun h => ?_, fun h => absurd h hno⟩⟩
              rw [herr] at h; cases h

/-- States of a decompressor of the input `inp`: after any number of symbols, with any `utf8len`. -/
inductive Reach (inp : Bytes) : Dec → Prop
  | start : Reach inp { inp := inp }
  | step {d d' : Dec} {c : Nat} (n : Nat) : Reach inp d → decomp (du n d) = .ok (c, d') → Reach inp d'
  | utf8 {d : Dec} (n : Nat) : Reach inp d → Reach inp (du n d)

theorem decOk_du {d : Dec} (h : DecOk d) (n : Nat) : DecOk (du n d) := ⟨h.inv, h.prev, h.ready⟩

theorem reach_ok {inp : Bytes} {d : Dec} (h : Reach inp d) : DecOk d := by
  induction h with
  | start => exact ⟨invC_nil.toInvD, fun w hw => (by cases hw), fun x hx => absurd hx List.not_mem_nil⟩
  | step n _ hs ih =>
    have := (decompress_spec _ _ (decOk_du ih n) (Nat.lt_succ_self _)).1
    unfold decomp at hs
    rcases this with ⟨c', d'', h1, h2, _⟩ | h1 | h1
    · rw [hs] at h1
      cases h1
      exact h2
    · rw [hs] at h1; cases h1
    · rw [hs] at h1; cases h1
  | utf8 n _ ih => exact decOk_du ih n

/-- **C51 (exact, one symbol).** In every state of a decompressor of any input: the dictionary is accessed out of range only if the code to be read
– after optimisation codes, if any – is the one that would be created next and there is no previous code; otherwise a symbol or the end is
given, or an error is reported, and the recursion is finite. -/
theorem C51_symbol_partial {inp : Bytes} {d : Dec} (h : Reach inp d) :
    ((∃ c d', decomp d = .ok (c, d')) ∨ decomp d = .err ∨ decomp d = .ub) ∧ (decomp d = .ub ↔ ∃ d0, Skips d d0 ∧ Orphan d0) := by
  have := decompress_spec (d.inp.length + 1) d (reach_ok h) (Nat.lt_succ_self _)
  refine ⟨?_, this.2⟩
  rcases this.1 with ⟨c, d', h1, _⟩ | h1 | h1
  · exact .inl ⟨c, d', h1⟩
  · exact .inr (.inl h1)
  · exact .inr (.inr h1)

theorem get_cases {inp : Bytes} {d : Dec} (h : Reach inp d) : (∃ c d', Compr.get d = .ok (c, d') ∧ Reach inp d') ∨ Compr.get d = .err ∨
    (Compr.get d = .ub ∧ ∃ e d0, Reach inp e ∧ Skips e d0 ∧ Orphan d0) := by
  have hd : ∀ {d}, Reach inp d → (∃ c d', decomp d = .ok (c, d') ∧ Reach inp d') ∨ decomp d = .err ∨
      (decomp d = .ub ∧ ∃ e d0, Reach inp e ∧ Skips e d0 ∧ Orphan d0) := by
    intro d h
    obtain ⟨h1, h2⟩ := C51_symbol_partial h
    rcases h1 with ⟨c, d', h1⟩ | h1 | h1
    · exact .inl ⟨c, d', h1, .step d.utf8len h h1⟩
    · exact .inr (.inl h1)
    · obtain ⟨d0, a, b⟩ := h2.1 h1
      exact .inr (.inr ⟨h1, d, d0, h, a, b⟩)
  have hlead : ∀ {d} (n m : Nat), Reach inp d → (∃ c d', lead d n m = .ok (c, d') ∧ Reach inp d') ∨ lead d n m = .err ∨
      (lead d n m = .ub ∧ ∃ e d0, Reach inp e ∧ Skips e d0 ∧ Orphan d0) := by
    intro d n m h
    unfold lead
    rcases hd (.utf8 n h) with ⟨c, d', h1, h2⟩ | h1 | ⟨h1, h2⟩
    · refine .inl ⟨c ||| m, d', ?_, h2⟩
      show (decomp (du n d) >>= _) = _
      rw [h1]; rfl
    · refine .inr (.inl ?_)
      show (decomp (du n d) >>= _) = _
      rw [h1]; rfl
    · refine .inr (.inr ⟨?_, h2⟩)
      show (decomp (du n d) >>= _) = _
      rw [h1]; rfl
  unfold Compr.get
  rcases hd h with ⟨c, d', h1, h2⟩ | h1 | ⟨h1, h2⟩
  · rw [h1]
    simp only [Res.bind_ok]
    split
    · exact .inl ⟨_, _, rfl, .utf8 _ h2⟩
    split
    · exact .inl ⟨_, _, rfl, h2⟩
    split
    · exact hlead _ _ h2
    split
    · exact hlead _ _ h2
    split
    · exact hlead _ _ h2
    split
    · exact hlead _ _ h2
    · exact .inl ⟨_, _, rfl, h2⟩
  · rw [h1]; exact .inr (.inl rfl)
  · rw [h1]; exact .inr (.inr ⟨rfl, h2⟩)

/-- **C51 (partial).** For any byte sequence and any number of characters read, the dictionary is accessed out of range only if an orphan code
occurs in some state reached. Missing: orphan codes occur in crafted input, see `C51_violation_first`, `C51_violation_optimize`. -/
theorem C51_safe_partial (inp : Bytes) (hno : ∀ e d0, Reach inp e → Skips e d0 → ¬ Orphan d0) (n : Nat) : getAll n { inp := inp } ≠ .ub := by
  have key : ∀ n d, Reach inp d → getAll n d ≠ .ub := by
    intro n
    induction n with
    | zero => intro d _ h; cases h
    | succ n ih =>
      intro d h
      rw [getAll.eq_def]
      dsimp only
      rcases get_cases h with ⟨c, d', h1, h2⟩ | h1 | ⟨h1, e, d0, a, b, o⟩
      · rw [h1]
        simp only [Res.bind_ok]
        split
        · intro hc; cases hc
        · have := ih d' h2
          cases hg : getAll n d' with
          | ok r => intro hc; cases hc
          | err => intro hc; cases hc
          | ub => exact absurd hg this
          | abort => intro hc; cases hc
          | fuel => intro hc; cases hc
      · rw [h1]; intro hc; cases hc
      · exact absurd o (hno e d0 a b)
  exact key n _ .start

/-- Only the text of a result. -/
def fstOk (x : Res (Bytes × Dec)) (l : Bytes) : Bool :=
  match x with
  | .ok r => r.1 == l
  | _ => false

theorem res_fst {x : Res (Bytes × Dec)} {l : Bytes} (h : fstOk x l = true) : ∃ d, x = .ok (l, d) := by
  cases x with
  | ok r => exact ⟨r.2, by rw [← show r.1 = l from eq_of_beq h]⟩
  | err => cases h
  | ub => cases h
  | abort => cases h
  | fuel => cases h

example : DecOk { inp := [71, 102, 71, 255, 255] } ∧ ¬ Orphan { inp := [71, 102, 71, 255, 255] } ∧
    (∃ d, getAll 9 { inp := [71, 102, 71, 255, 255] } = .ok ([97, 97, 97, 97], d)) :=
  ⟨reach_ok .start, fun h => absurd h.2.2.1 (by decide), res_fst (by decide +kernel)⟩

/-- **C51 violated.** The first code 102 refers to the sequence of the previous code, which does not exist: the dictionary is accessed at
`initialChainCode - firstCode`. -/
theorem C51_violation_first : getAll 1 { inp := [102] } = .ub := by decide +kernel

/-- **C51 violated.** The same after an optimisation code in the middle of a stream. -/
theorem C51_violation_optimize : getAll 3 { inp := [71, 71, 255, 254, 102] } = .ub := by decide +kernel

/-! ### C90 -/

/-- Previous codes can be written; the dictionary under construction has at most the codes allowed. -/
structure Bnd (s : Dicts) : Prop where
  prevs : ∀ (i : Nat) d, s.1[i]? = some d → d.prev < maxCode
  room : s.2.length + firstCode ≤ maxCodeForOptimize

theorem bnd_mark {s : Dicts} (h : Bnd s) (i : Nat) : Bnd (mark s i) := by
  refine ⟨?_, ?_⟩
  · intro j d hd
    obtain ⟨e, he, h1, _⟩ := shape_get (shape_mark s i) hd
    rw [← h1]
    exact h.prevs j e he
  · unfold mark
    split
    · exact h.room
    · split
      · exact h.room
      · rename_i hc
        have hf : ¬ Full s := fun hf => hc (.inr hf)
        unfold Full at hf
        simp only [List.length_append, List.length_cons, List.length_nil]
        omega

theorem bnd_markPath (is : List Nat) : ∀ {s : Dicts}, Bnd s → Bnd (markPath s is) := by
  induction is with
  | nil => exact fun h => h
  | cons i is ih => exact fun h => ih (bnd_mark h i)

/-- Reachable states of the compressor. -/
def Cok (c : Comp) : Prop :=
  (∃ n, c = cu n {}) ∨ ∃ d c0 u q is, Mid c d c0 u q is ∧ Bnd (d.db ++ pend d.prev c0, d.ndb)

theorem cok_cu {c : Comp} (h : Cok c) (n : Nat) : Cok (cu n c) := by
  rcases h with ⟨m, rfl⟩ | ⟨d, c0, u, q, is, h, hb⟩
  · exact .inl ⟨n, rfl⟩
  · exact .inr ⟨d, c0, u, q, is, ⟨h.inv, h.invd, h.prevOk, h.ready, h.path, h.qlt, ⟨h.rep.db, h.rep.next, h.rep.ndb, h.rep.nnext⟩, h.seq, h.new⟩, hb⟩

theorem compressSym_ok {c : Comp} (h : Cok c) (x : Nat) : compressSym c x = .err ∨ ∃ c', compressSym c x = .ok c' ∧ Cok c' := by
  by_cases hx : x < firstCode
  swap
  · left
    unfold compressSym
    rw [if_pos (by omega)]
  right
  rcases h with ⟨n, rfl⟩ | ⟨d, c0, u, q, is, h, hb⟩
  · refine ⟨cu n { lastSeq := some x, lastNew := some x }, ?_, cok_cu (.inr ⟨{}, x, [], x, [], mid_first hx, ?_, ?_⟩) n⟩
    · unfold compressSym
      rw [if_neg (by omega)]
      rfl
    · intro i d hd; simp [pend] at hd
    · exact (by decide : 0 + firstCode ≤ maxCodeForOptimize)
  · have hb' := bnd_markPath is hb
    cases hf : cfind c.db (q, x) with
    | none =>
      obtain ⟨c1, h1, h2, h3, h4⟩ := h.notFound hx hf
      refine ⟨c1, h1, .inr ⟨_, _, _, _, _, h4 [], ?_, hb'.room⟩⟩
      intro i d' hd
      rcases get_push hd with hd | ⟨_, rfl⟩
      · exact hb'.prevs i d' hd
      · exact h.qlt
    | some i =>
      by_cases hi : i.next ≥ maxCode
      · obtain ⟨c1, h1, h2, h3, h4⟩ := h.replace hx hf hi
        refine ⟨c1, h1, .inr ⟨_, _, _, _, _, h4 [], ?_, (by decide : 0 + firstCode ≤ maxCodeForOptimize)⟩⟩
        intro j d' hd
        have hd : (markPath (d.db ++ pend d.prev c0, d.ndb) is).2[j]? = some d' := by
          rw [← hd]
          exact congrArg (·[j]?) (List.append_nil _).symm
        have h5 := ((markPath_invC h.inv h.path).wfn j d' hd).1
        have h6 := (List.getElem?_eq_some_iff.1 hd).1
        have h7 := hb'.room
        have h8 : maxCodeForOptimize < maxCode := by decide
        omega
      · obtain ⟨c1, q', j, h1, h2, h3, h4⟩ := h.goOn hx hf hi
        exact ⟨c1, h1, .inr ⟨_, _, _, _, _, h4, hb⟩⟩

theorem compress2_ok {c : Comp} (h : Cok c) (a b n : Nat) : compress2 c a b n = .err ∨ ∃ c', compress2 c a b n = .ok c' ∧ Cok c' := by
  unfold compress2
  rcases compressSym_ok h a with h1 | ⟨c1, h1, h2⟩
  · rw [h1]; exact .inl rfl
  · rw [h1]
    simp only [Res.bind_ok]
    rcases compressSym_ok h2 b with h3 | ⟨c2, h3, h4⟩
    · rw [h3]; exact .inl rfl
    · rw [h3]; exact .inr ⟨_, rfl, cok_cu h4 n⟩

theorem put_ok {c : Comp} (h : Cok c) (b : Nat) : put c b = .err ∨ ∃ c', put c b = .ok c' ∧ Cok c' := by
  unfold put
  split
  · exact compressSym_ok (cok_cu h _) _
  split
  · split
    · exact compress2_ok h _ _ _
    split
    · exact compress2_ok h _ _ _
    split
    · exact compress2_ok h _ _ _
    split
    · exact compress2_ok h _ _ _
    · exact .inl rfl
  split
  · exact .inl rfl
  · exact compressSym_ok h _

theorem putAll_ok (l : Bytes) : ∀ {c : Comp}, Cok c → putAll c l = .err ∨ ∃ c', putAll c l = .ok c' ∧ Cok c' := by
  induction l with
  | nil => exact fun h => .inr ⟨_, rfl, h⟩
  | cons b l ih =>
    intro c h
    rw [putAll.eq_def]
    dsimp only
    rcases put_ok h b with h1 | ⟨c1, h1, h2⟩
    · rw [h1]; exact .inl rfl
    · rw [h1]; exact ih h2

theorem length_of_keys {V : List DInfo} (hn : ∀ (i j : Nat) d e, V[i]? = some d → V[j]? = some e → d.prev = e.prev → d.ch = e.ch → i = j)
    (hp : ∀ (i : Nat) d, V[i]? = some d → d.prev < maxCode ∧ d.ch < firstCode) : V.length ≤ maxCode * firstCode := by
  have hnd : (V.map (fun d => d.prev * firstCode + d.ch)).Nodup := by
    rw [List.Nodup, List.pairwise_iff_getElem]
    intro i j hi hj hij
    rw [List.length_map] at hi hj
    rw [List.getElem_map, List.getElem_map]
    intro he
    have h1 := hp i _ (List.getElem?_eq_getElem hi)
    have h2 := hp j _ (List.getElem?_eq_getElem hj)
    have hc : V[i].ch = V[j].ch := by
      have := congrArg (· % firstCode) he
      simpa [Nat.add_mod, Nat.mod_eq_of_lt h1.2, Nat.mod_eq_of_lt h2.2] using this
    rw [hc] at he
    have hpv : V[i].prev = V[j].prev := Nat.eq_of_mul_eq_mul_right (by decide : 0 < firstCode) (Nat.add_right_cancel he)
    have := hn i j _ _ (List.getElem?_eq_getElem hi) (List.getElem?_eq_getElem hj) hpv hc
    omega
  have hsub : (V.map (fun d => d.prev * firstCode + d.ch)) ⊆ List.range (maxCode * firstCode) := by
    intro x hx
    obtain ⟨d, hd, rfl⟩ := List.mem_map.1 hx
    obtain ⟨i, hi⟩ := List.getElem?_of_mem hd
    have h1 := hp i d hi
    rw [List.mem_range]
    calc d.prev * firstCode + d.ch < d.prev * firstCode + firstCode := by omega
      _ = (d.prev + 1) * firstCode := by rw [Nat.add_mul, Nat.one_mul]
      _ ≤ maxCode * firstCode := Nat.mul_le_mul_right _ h1.1
  have := (hnd.subperm hsub).length_le
  simpa using this

/-- **C90.** For any byte sequence the compressor never uses an uninitialised code; it compresses or reports an error, and its codes stay far
below 2^32. -/
theorem C90_bounded (l : Bytes) : putAll {} l = .err ∨ ∃ c, putAll {} l = .ok c ∧ c.nextCode ≤ maxCode * firstCode + firstCode ∧
    c.nnext ≤ maxCodeForOptimize ∧ c.nextCode < 2 ^ 32 ∧ ∀ q, c.lastSeq = some q → q < maxCode := by
  rcases putAll_ok l (.inl ⟨0, rfl⟩ : Cok {}) with h | ⟨c, h, hc⟩
  · exact .inl h
  · have hlt : maxCode * firstCode + firstCode < 2 ^ 32 := by decide
    refine .inr ⟨c, h, ?_⟩
    rcases hc with ⟨n, rfl⟩ | ⟨d, c0, u, q, is, hm, hb⟩
    · refine ⟨?_, by show firstCode ≤ _; decide, ?_, fun q hq => (by cases hq)⟩
      · show firstCode ≤ _; omega
      · show firstCode < _; omega
    · have hi := markPath_invC hm.inv hm.path
      have hb' := bnd_markPath is hb
      have := length_of_keys hi.nodup (fun i e he => ⟨hb'.prevs i e he, (hi.wf i e he).2⟩)
      have h1 := hm.rep.next
      have h2 := hm.rep.nnext
      have h3 := hb'.room
      refine ⟨by omega, by omega, by omega, ?_⟩
      intro q' hq'
      rw [hm.seq] at hq'
      cases hq'
      exact hm.qlt

example : ∃ c, putAll {} [0x61, 0x61, 0x61, 0xE4, 0x10, 0x20, 0x61] = .ok c ∧ c.nextCode = 108 := ⟨_, by rfl, by rfl⟩

/-! ### C91, C92 -/

/-- **C91 violated.** A malformed sequence is not rejected, and the text which is decompressed is another one: the byte after the lead byte C3 is
returned with the high bit set. -/
theorem C91_violation_malformed : ∃ out d, compressAll [0xC3, 0x41] = .ok out ∧ getAll 3 { inp := out } = .ok ([0xC3, 0xC1], d) := by
  obtain ⟨d, hd⟩ := res_fst (x := getAll 3 { inp := [1, 3, 65, 255, 255] }) (l := [0xC3, 0xC1]) (by decide +kernel)
  exact ⟨[1, 3, 65, 255, 255], d, by rfl, hd⟩

/-- **C91.** What is rejected: any control character at the beginning of a character, and bytes that are no lead byte. -/
theorem C91_reject (c : Comp) (b : Nat) (hu : c.utf8len = 0) (hb : b < 256) (h : b < 32 ∨ (0x80 ≤ b ∧ b ≤ 0xBF) ∨ 0xFC ≤ b) : put c b = .err := by
  have h1 : ∀ b, b < 128 → b &&& 0x80 = 0 := by decide
  have h2 : ∀ b, b < 256 → 128 ≤ b → b &&& 0x80 ≠ 0 := by decide
  have h3 : ∀ b, b < 256 → (0x80 ≤ b ∧ b ≤ 0xBF) ∨ 0xFC ≤ b → b &&& 0xE0 ≠ 0xC0 ∧ b &&& 0xF0 ≠ 0xE0 ∧ b &&& 0xF8 ≠ 0xF0 ∧ b &&& 0xFC ≠ 0xF8 := by
    decide
  unfold put
  rw [if_neg (by rw [hu]; simp)]
  by_cases hs : b < 128
  · rw [if_neg (by rw [h1 b hs]; simp), if_pos (by omega)]
  · obtain ⟨a1, a2, a3, a4⟩ := h3 b hb (by omega)
    rw [if_pos (h2 b hb (by omega)), if_neg a1, if_neg a2, if_neg a3, if_neg a4]

example : (({} : Comp).utf8len = 0) ∧ put {} 10 = .err := ⟨rfl, by rfl⟩

/-- The decompressor after the text "aaaa". -/
def usedDec (inp : Bytes) : Dec := { firstChar := some 71, ndb := [{ prev := 71, ch := 71 }], inp := inp }

/-- **C92 violated.** At the end of a text the decompressor resets itself, but not the dictionary under construction. A stream which a new
decompressor cannot decompress is then decompressed to a sequence of the earlier text. -/
theorem C92_violation_reuse : getAll 5 { inp := [71, 102, 71, 255, 255] ++ [255, 254, 102, 255, 255] } =
      .ok ([97, 97, 97, 97], usedDec [255, 254, 102, 255, 255]) ∧
    (∃ d, getAll 5 (usedDec [255, 254, 102, 255, 255]) = .ok ([97, 97], d)) ∧ getAll 5 { inp := [255, 254, 102, 255, 255] } = .ub :=
  ⟨by decide +kernel, res_fst (by decide +kernel), by decide +kernel⟩

/-- **C92 (partial).** After the flush code the decompressor has an empty dictionary and no previous code; the dictionary under construction and
`firstChar` stay. -/
theorem C92_flush_partial (d : Dec) (hr : d.ready = []) (h : (readCode d.inp).1 = flushCode) :
    decomp d = .ok (255, { d with inp := (readCode d.inp).2, db := [], prev := none }) := by
  unfold decomp
  rw [decompress_nil hr, if_pos h]

example : (readCode ([] : Bytes)).1 = flushCode := by decide

end Imt.Props
