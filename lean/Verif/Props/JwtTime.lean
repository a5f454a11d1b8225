import Verif.Props.Jwt
import Verif.Model.Conv
import Mathlib.Data.Rat.Floor
/-!
# Time window of tokens with any numbers (C64)
-/
namespace Imt.Props
open Imt Imt.Spec Imt.Jwt

/-- The number a member stands for: doubles as rounded by the reader, precise numbers as `strtod` reads them. -/
def valueQ (fp : Conv.FP) : JNum → Option ℚ
  | .uint n => some n
  | .int i => some i
  | .dbl d => match fp.rnd d with | .fin q => some q | _ => none
  | .inf _ => none
  | .prec t .dbl => match fp.strtod t with | .fin q => some q | _ => none
  | .prec _ (.sint i) => some i
  | .prec _ (.unat n) => some n

/-- `n` lies in the range of unsigned 64-bit numbers. -/
def InU64 (fp : Conv.FP) (n : JNum) : Prop := ∃ q, valueQ fp n = some q ∧ 0 ≤ q ∧ q < 2 ^ 64

theorem trunc_spec (q : ℚ) (h0 : 0 ≤ q) (h1 : q < 2 ^ 64) : ∃ e : Nat, Conv.dblToUInt (.fin q) = .ok e ∧ ∀ k : Nat, k ≤ e ↔ (k : ℚ) ≤ q := by
  have hn : 0 ≤ q.num := Rat.num_nonneg.2 h0
  have e1 : Int.tdiv q.num q.den = ⌊q⌋ := by
    rw [Int.tdiv_eq_ediv_of_nonneg hn, Rat.floor_def']
  have e2 : 0 ≤ ⌊q⌋ := Int.floor_nonneg.2 h0
  have e3 : ⌊q⌋ < 2 ^ 64 := by
    rw [Int.floor_lt]; exact_mod_cast h1
  refine ⟨⌊q⌋.toNat, ?_, fun k => ?_⟩
  · unfold Conv.dblToUInt
    simp only [e1]
    rw [if_pos ⟨e2, e3⟩]
  · rw [show k ≤ ⌊q⌋.toNat ↔ (k : Int) ≤ ⌊q⌋ by omega, Int.le_floor]
    norm_cast

theorem toU64_spec (fp : Conv.FP) (n : JNum) (q : ℚ) (h : valueQ fp n = some q) (h0 : 0 ≤ q) (h1 : q < 2 ^ 64) :
    ∃ e : Nat, toU64 (Conv.numUInt fp) n = .ok e ∧ ∀ k : Nat, k ≤ e ↔ (k : ℚ) ≤ q := by
  have hint : ∀ i : Int, (i : ℚ) = q → ∀ k : Nat, k ≤ (i % 2 ^ 64).toNat ↔ (k : ℚ) ≤ q := by
    rintro i rfl k
    have a : 0 ≤ i := by exact_mod_cast h0
    have b : i < 2 ^ 64 := by exact_mod_cast h1
    rw [Int.emod_eq_of_lt a b, show k ≤ i.toNat ↔ (k : Int) ≤ i by omega]
    norm_cast
  cases n with
  | uint n => cases h; exact ⟨n, rfl, fun k => by norm_cast⟩
  | int i => cases h; exact ⟨_, rfl, hint i rfl⟩
  | dbl d =>
    unfold valueQ at h
    dsimp only at h
    cases hd : fp.rnd d with
    | fin q' =>
      rw [hd] at h; cases h
      obtain ⟨e, e1, e2⟩ := trunc_spec q h0 h1
      exact ⟨e, by unfold toU64 Conv.numUInt; simp only [hd]; exact e1, e2⟩
    | _ => rw [hd] at h; cases h
  | inf b => cases h
  | prec t c =>
    cases c with
    | dbl =>
      unfold valueQ at h
      dsimp only at h
      cases hd : fp.strtod t with
      | fin q' =>
        rw [hd] at h; cases h
        obtain ⟨e, e1, e2⟩ := trunc_spec q h0 h1
        exact ⟨e, by unfold toU64 Conv.numUInt; simp only [hd]; exact e1, e2⟩
      | _ => rw [hd] at h; cases h
    | sint i => cases h; exact ⟨_, rfl, hint i rfl⟩
    | unat n => cases h; exact ⟨n, rfl, fun k => by norm_cast⟩

/-- What a test of a bound says. -/
theorem numTest_spec (fp : Conv.FP) (v : JV) (hs : TopSorted v) (name : Bytes) (h : ∀ n, bound v name = some n → InU64 fp n) (p : Nat → Bool) :
    (bound v name = none ∧ numTest (Conv.numUInt fp) (member v name) p = .ok false) ∨
    ∃ n q e, bound v name = some n ∧ valueQ fp n = some q ∧ (∀ k : Nat, k ≤ e ↔ (k : ℚ) ≤ q) ∧
      numTest (Conv.numUInt fp) (member v name) p = .ok (p e) := by
  rcases member_bound v hs name with ⟨n, h1, h2⟩ | ⟨h1, h2⟩
  · right
    obtain ⟨q, q1, q2, q3⟩ := h n h1
    obtain ⟨e, e1, e2⟩ := toU64_spec fp n q q1 q2 q3
    refine ⟨n, q, e, h1, q1, e2, ?_⟩
    rw [h2]
    unfold numTest
    simp only [e1]
    rfl
  · left
    refine ⟨h1, ?_⟩
    cases hm : member v name <;> first | rfl | exact absurd hm (h2 _)

/-- The token may be used at the second `now`: not expired before it, and valid before it ends. -/
def InWindow (fp : Conv.FP) (v : JV) (now : Nat) : Prop :=
  (∀ n q, bound v (ascii "exp") = some n → valueQ fp n = some q → (now : ℚ) ≤ q) ∧
  (∀ n q, bound v (ascii "nbf") = some n → valueQ fp n = some q → q < now + 1)

/-- **C64, all numbers** (partial: bounds from 0 up to 2^64). Bounds that are integers, doubles or precise numbers in the range of unsigned
64-bit numbers: the token is returned exactly inside of its time window, with the time counted in whole seconds. Missing: negative bounds, infinities and numbers from
2^64 on (violations), times before 1970. -/
theorem C64_numbers_partial (fp : Conv.FP) (v : JV) (hs : TopSorted v) (now : Nat) (hnow : now < 2 ^ 64)
    (he : ∀ n, bound v (ascii "exp") = some n → InU64 fp n) (hn : ∀ n, bound v (ascii "nbf") = some n → InU64 fp n) :
    (InWindow fp v now → checkJWTTime (Conv.numUInt fp) v now = .ok v) ∧
    (¬ InWindow fp v now → checkJWTTime (Conv.numUInt fp) v now = .ok .undef) := by
  have ht : ((now : Int) % 2 ^ 64).toNat = now := by
    rw [Int.emod_eq_of_lt (by omega) (by exact_mod_cast hnow)]; rfl
  have hexp : ∃ b : Bool, numTest (Conv.numUInt fp) (member v (ascii "exp")) (fun e => decide (e < now)) = .ok b ∧
      (b = false ↔ ∀ n q, bound v (ascii "exp") = some n → valueQ fp n = some q → (now : ℚ) ≤ q) := by
    rcases numTest_spec fp v hs (ascii "exp") he (fun e => decide (e < now)) with ⟨h1, h2⟩ | ⟨n, q, e, h1, h2, h3, h4⟩
    · exact ⟨false, h2, by simp [h1]⟩
    · refine ⟨_, h4, ?_⟩
      rw [decide_eq_false_iff_not, Nat.not_lt, h3]
      constructor
      · intro h n' q' hn' hq'
        rw [h1] at hn'; cases hn'
        rw [h2] at hq'; cases hq'
        exact h
      · intro h; exact h n q h1 h2
  have hnbf : ∃ b : Bool, numTest (Conv.numUInt fp) (member v (ascii "nbf")) (fun e => decide (e > now)) = .ok b ∧
      (b = false ↔ ∀ n q, bound v (ascii "nbf") = some n → valueQ fp n = some q → q < now + 1) := by
    rcases numTest_spec fp v hs (ascii "nbf") hn (fun e => decide (e > now)) with ⟨h1, h2⟩ | ⟨n, q, e, h1, h2, h3, h4⟩
    · exact ⟨false, h2, by simp [h1]⟩
    · refine ⟨_, h4, ?_⟩
      rw [decide_eq_false_iff_not, show ¬ (e > now) ↔ ¬ (now + 1 ≤ e) by omega, h3]
      push_cast
      rw [not_le]
      constructor
      · intro h n' q' hn' hq'
        rw [h1] at hn'; cases hn'
        rw [h2] at hq'; cases hq'
        exact h
      · intro h; exact h n q h1 h2
  obtain ⟨b1, e1, f1⟩ := hexp
  obtain ⟨b2, e2, f2⟩ := hnbf
  unfold checkJWTTime InWindow
  simp only [ht]
  rw [e1, Res.bind_ok, e2, ← f1, ← f2]
  cases b1 <;> cases b2 <;> simp [pure, Pure.pure]

/-- A token valid from 99.5 to 200.25. -/
example : let fp : Conv.FP := ⟨fun d => .fin (if d.frac = 5 then 199 / 2 else 801 / 4), fun _ => .nan, fun _ => false⟩
    let v : JV := .obj [(ascii "exp", .num (.dbl ⟨false, 200, 25, 2, 0⟩)), (ascii "nbf", .num (.dbl ⟨false, 99, 5, 1, 0⟩))]
    TopSorted v ∧ (∀ n, bound v (ascii "exp") = some n → InU64 fp n) ∧ (∀ n, bound v (ascii "nbf") = some n → InU64 fp n) ∧
      InWindow fp v 99 ∧ InWindow fp v 200 ∧ ¬ InWindow fp v 201 ∧ ¬ InWindow fp v 98 := by
  intro fp v
  have b1 : bound v (ascii "exp") = some (.dbl ⟨false, 200, 25, 2, 0⟩) := by decide +kernel
  have b2 : bound v (ascii "nbf") = some (.dbl ⟨false, 99, 5, 1, 0⟩) := by decide +kernel
  have v1 : valueQ fp (.dbl ⟨false, 200, 25, 2, 0⟩) = some (801 / 4) := rfl
  have v2 : valueQ fp (.dbl ⟨false, 99, 5, 1, 0⟩) = some (199 / 2) := rfl
  have w : ∀ now : Nat, InWindow fp v now ↔ ((now : ℚ) ≤ 801 / 4 ∧ (199 / 2 : ℚ) < now + 1) := by
    intro now
    unfold InWindow
    rw [b1, b2]
    constructor
    · rintro ⟨h1, h2⟩; exact ⟨h1 _ _ rfl v1, h2 _ _ rfl v2⟩
    · rintro ⟨h1, h2⟩
      refine ⟨?_, ?_⟩
      · intro n q hn hq; cases hn; rw [v1] at hq; cases hq; exact h1
      · intro n q hn hq; cases hn; rw [v2] at hq; cases hq; exact h2
  refine ⟨by simp only [v, TopSorted, StrictSorted]; decide +kernel, ?_, ?_, ?_, ?_, ?_, ?_⟩
  · rw [b1]; rintro n ⟨⟩; exact ⟨_, v1, by norm_num, by norm_num⟩
  · rw [b2]; rintro n ⟨⟩; exact ⟨_, v2, by norm_num, by norm_num⟩
  all_goals rw [w]; norm_num

/-- **C64, violation.** Infinite bounds, and doubles from 2^64 on or at most -1, make the conversion of the number undefined behaviour, whatever the time is. -/
theorem C64_violation_range (fp : Conv.FP) (n : JNum) (now : Int)
    (h : (∃ b, n = .inf b) ∨ ∃ d q, n = .dbl d ∧ fp.rnd d = .fin q ∧ (2 ^ 64 ≤ q ∨ q ≤ -1)) :
    checkJWTTime (Conv.numUInt fp) (.obj [(ascii "exp", .num n)]) now = .ub := by
  have hm : member (.obj [(ascii "exp", .num n)]) (ascii "exp") = .num n := by
    simp only [member]
    rw [C24_member _ (by simp [StrictSorted])]
    rfl
  have hu : toU64 (Conv.numUInt fp) n = .ub := by
    rcases h with ⟨b, rfl⟩ | ⟨d, q, rfl, hd, hq⟩
    · rfl
    · unfold toU64 Conv.numUInt
      simp only [hd]
      unfold Conv.dblToUInt
      dsimp only
      rw [if_neg]
      rintro ⟨h1, h2⟩
      rcases hq with hq | hq
      · have hn : 0 ≤ q.num := Rat.num_nonneg.2 (le_trans (by norm_num) hq)
        rw [Int.tdiv_eq_ediv_of_nonneg hn, ← Rat.floor_def', Int.floor_lt] at h2
        have h2 : q < 2 ^ 64 := by exact_mod_cast h2
        exact absurd hq (not_le.2 h2)
      · have hn : 0 ≤ (-q).num := Rat.num_nonneg.2 (by linarith)
        have e : Int.tdiv q.num q.den = - ⌊-q⌋ := by
          rw [Rat.floor_def', ← Int.tdiv_eq_ediv_of_nonneg hn, Rat.neg_num, Rat.neg_den, Int.neg_tdiv]; ring
        rw [e] at h1
        have : 1 ≤ ⌊-q⌋ := by rw [Int.le_floor]; push_cast; linarith
        omega
  unfold checkJWTTime
  rw [hm]
  unfold numTest
  simp only [hu]
  rfl

/-- `{"exp":1e20}`. -/
example : let fp : Conv.FP := ⟨fun _ => .fin (10 ^ 20), fun _ => .nan, fun _ => false⟩
    fp.rnd ⟨false, 1, 0, 0, 20⟩ = .fin (10 ^ 20) ∧ (2 ^ 64 : ℚ) ≤ 10 ^ 20 := ⟨rfl, by norm_num⟩

end Imt.Props
