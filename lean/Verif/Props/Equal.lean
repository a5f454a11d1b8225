import Verif.Model.Equal
import Verif.Lemmas.Basic
import Verif.Spec.Order
import Mathlib.Tactic.ByContra
/-!
# Properties of equality, comparison and hash (C22, C43, C44, C80)
-/
namespace Imt.Props
open Imt Imt.Eq Imt.Spec

/-- `x` is `v` or one of the values inside. -/
inductive Sub (x : EV) : EV → Prop where
  | self : Sub x x
  | item (v k : EV) (hk : k ∈ v.kids) (h : Sub x k) : Sub x v

/-- The value lives in the memory `H`: an address holds one object. -/
def Lives (H : Nat → EV) (v : EV) : Prop := ∀ x, Sub x v → H x.addr = x

/-- A condition on all numbers inside; it is told whether the number is wrapped with a custom object. -/
def Numbers (P : Num → Bool → Prop) (v : EV) : Prop := ∀ x, Sub x v → ∀ n, x.sh = .num n → P n x.wrapped

/-- The integer is exactly representable as a double. -/
def Exact : Num → Prop
  | .uint n | .precU n => rnd n = n
  | .int i | .precI i => rnd i.natAbs = i.natAbs
  | _ => True

/-- No undefined inside. -/
def NoUndef (v : EV) : Prop := ∀ x, Sub x v → x.sh ≠ .undef

theorem Lives.kid {H : Nat → EV} {a : Nat} {k : Bytes} {w : Bool} {s : Sh} {l : List EV} (h : Lives H (.node a k w s l)) :
    ∀ x ∈ l, Lives H x := fun x hx y hy => h y (.item _ x hx hy)

theorem Numbers.kid {P : Num → Bool → Prop} {a : Nat} {k : Bytes} {w : Bool} {s : Sh} {l : List EV}
    (h : Numbers P (.node a k w s l)) : ∀ x ∈ l, Numbers P x := fun x hx y hy => h y (.item _ x hx hy)

theorem NoUndef.kid {a : Nat} {k : Bytes} {w : Bool} {s : Sh} {l : List EV}
    (h : NoUndef (.node a k w s l)) : ∀ x ∈ l, NoUndef x := fun x hx y hy => h y (.item _ x hx hy)

theorem one_pos : 0 < one := by unfold one; exact Int.pow_pos (by omega)

theorem deq_iff (x y : D) : deq x y = true ↔ x = y ∧ x ≠ .nan := by
  cases x <;> cases y <;> simp [deq]

theorem deq_comm (x y : D) : deq x y = deq y x := by
  rw [Bool.eq_iff_iff, deq_iff, deq_iff]
  constructor
  · rintro ⟨rfl, h⟩; exact ⟨rfl, h⟩
  · rintro ⟨rfl, h⟩; exact ⟨rfl, h⟩

theorem numEq_comm (a b : Num) : numEq a b false = numEq b a false := by
  cases a <;> cases b <;> simp only [numEq, Bool.false_eq_true, if_false] <;>
    first | exact deq_comm _ _ | (rw [Bool.eq_iff_iff, beq_iff_eq, beq_iff_eq]; exact eq_comm)

/-! ## C44 — equality -/

mutual
theorem equal_symm : ∀ (a b : EV), Numbers (fun _ w => w = false) a → Numbers (fun _ w => w = false) b → equal a b = equal b a
  | .node aa ak aw ash al, .node ba bk bw bsh bl, ha, hb => by
    have hi := equalItems_symm al bl ha.kid hb.kid
    have hm := equalMembers_symm al bl ha.kid hb.kid
    have hl : (bl.length == al.length) = (al.length == bl.length) := by
      rw [Bool.eq_iff_iff, beq_iff_eq, beq_iff_eq]; exact eq_comm
    rw [equal.eq_def, equal.eq_def]
    dsimp only [EV.sh, EV.kids, EV.wrapped]
    cases ash <;> cases bsh <;> simp only [hi, hm, hl] <;> try rfl
    · rw [Bool.eq_iff_iff, beq_iff_eq, beq_iff_eq]; exact eq_comm
    · have h1 : aw = false := ha _ .self _ rfl
      have h2 : bw = false := hb _ .self _ rfl
      rw [h1, h2]; exact numEq_comm _ _
    · rw [Bool.eq_iff_iff, beq_iff_eq, beq_iff_eq]; exact eq_comm
theorem equalItems_symm : ∀ (l r : List EV), (∀ x ∈ l, Numbers (fun _ w => w = false) x) →
    (∀ x ∈ r, Numbers (fun _ w => w = false) x) → equalItems l r = equalItems r l
  | [], [], _, _ => rfl
  | [], _ :: _, _, _ => by simp [equalItems]
  | _ :: _, [], _, _ => by simp [equalItems]
  | a :: l, b :: r, hl, hr => by
    rw [equalItems, equalItems, equal_symm a b (hl a (by simp)) (hr b (by simp)),
      equalItems_symm l r (fun x hx => hl x (by simp [hx])) (fun x hx => hr x (by simp [hx])),
      show (a.addr == b.addr) = (b.addr == a.addr) by rw [Bool.eq_iff_iff, beq_iff_eq, beq_iff_eq]; exact eq_comm]
theorem equalMembers_symm : ∀ (l r : List EV), (∀ x ∈ l, Numbers (fun _ w => w = false) x) →
    (∀ x ∈ r, Numbers (fun _ w => w = false) x) → equalMembers l r = equalMembers r l
  | [], [], _, _ => rfl
  | [], _ :: _, _, _ => by simp [equalMembers]
  | _ :: _, [], _, _ => by simp [equalMembers]
  | a :: l, b :: r, hl, hr => by
    rw [equalMembers, equalMembers, equal_symm a b (hl a (by simp)) (hr b (by simp)),
      equalMembers_symm l r (fun x hx => hl x (by simp [hx])) (fun x hx => hr x (by simp [hx])),
      show (a.addr == b.addr) = (b.addr == a.addr) by rw [Bool.eq_iff_iff, beq_iff_eq, beq_iff_eq]; exact eq_comm,
      show (a.key == b.key) = (b.key == a.key) by rw [Bool.eq_iff_iff, beq_iff_eq, beq_iff_eq]; exact eq_comm]
end

/-- **C44.** A value equals itself, whatever is inside. -/
theorem C44_reflexive (a : EV) : opEq a a = true := by simp [opEq]

/-- **C44 (partial).** Equality is symmetric for values without wrapped numbers. Missing: numbers with a custom
object, see `C44_violation_symmetry`. -/
theorem C44_symmetric_partial (a b : EV) (ha : Numbers (fun _ w => w = false) a) (hb : Numbers (fun _ w => w = false) b) :
    opEq a b = opEq b a := by
  rw [opEq, opEq, equal_symm a b ha hb,
    show (a.addr == b.addr) = (b.addr == a.addr) by rw [Bool.eq_iff_iff, beq_iff_eq, beq_iff_eq]; exact eq_comm]

theorem dint_exact_nat {n : Nat} (h : rnd n = n) : dint n = .fin (n * one) := by
  have h0 : ¬ ((n : Int) < 0) := by omega
  unfold dint
  rw [if_neg h0, Int.natAbs_natCast, h]

theorem dint_exact {i : Int} (h : rnd i.natAbs = i.natAbs) : dint i = .fin (i * one) := by
  have key : (if i < 0 then -((i.natAbs : Int) * one) else (i.natAbs : Int) * one) = i * one := by
    generalize one = u
    split
    · rw [← Int.neg_mul, show -(i.natAbs : Int) = i by omega]
    · rw [show (i.natAbs : Int) = i by omega]
  unfold dint
  rw [h, key]

theorem mul_one_inj {x y : Int} : x * one = y * one ↔ x = y :=
  ⟨fun h => Int.eq_of_mul_eq_mul_right (by have := one_pos; omega) h, fun h => by rw [h]⟩

theorem mul_one_lt {x y : Int} : x * one < y * one ↔ x < y :=
  ⟨fun h => Int.lt_of_mul_lt_mul_right h (by have := one_pos; omega), fun h => Int.mul_lt_mul_of_pos_right h one_pos⟩

theorem deq_mul (u : Int) (hu : 0 < u) (x y : Int) : deq (.fin (x * u)) (.fin (y * u)) = decide (x = y) := by
  rw [show deq (.fin (x * u)) (.fin (y * u)) = decide (x * u = y * u) from rfl]
  have : x * u = y * u ↔ x = y := ⟨fun h => Int.eq_of_mul_eq_mul_right (by omega) h, fun h => by rw [h]⟩
  simp only [this]

theorem deq_mul_one (x y : Int) : deq (.fin (x * one)) (.fin (y * one)) = decide (x = y) := deq_mul one one_pos x y

theorem numEq_uint {m n : Nat} (hm : rnd m = m) (hn : rnd n = n) (w : Bool) :
    numEq (.uint m) (.uint n) w = deq (dint m) (dint n) := by
  have : numEq (.uint m) (.uint n) w = if w then deq (dint m) (dint n) else m == n := by rw [numEq]; rfl
  rw [this]
  cases w
  · rw [dint_exact_nat hm, dint_exact_nat hn, deq_mul_one, if_neg Bool.false_ne_true, Bool.eq_iff_iff, beq_iff_eq,
      decide_eq_true_iff, Int.natCast_inj]
  · rw [if_pos rfl]

theorem numEq_int {m n : Int} (hm : rnd m.natAbs = m.natAbs) (hn : rnd n.natAbs = n.natAbs) (w : Bool) :
    numEq (.int m) (.int n) w = deq (dint m) (dint n) := by
  have : numEq (.int m) (.int n) w = if w then deq (dint m) (dint n) else m == n := by rw [numEq]; rfl
  rw [this]
  cases w
  · rw [dint_exact hm, dint_exact hn, deq_mul_one, if_neg Bool.false_ne_true, Bool.eq_iff_iff, beq_iff_eq,
      decide_eq_true_iff]
  · rw [if_pos rfl]

theorem numEq_exact {a b : Num} (ha : Exact a) (hb : Exact b) (w : Bool) : numEq a b w = deq a.dbl' b.dbl' := by
  cases a <;> cases b <;> first | exact numEq_uint ha hb w | exact numEq_int ha hb w | (rw [numEq] <;> first | rfl | simp)

theorem same_of_addr {H : Nat → EV} {a b : EV} (ha : Lives H a) (hb : Lives H b) (h : (a.addr == b.addr) = true) : a = b := by
  rw [← ha a .self, ← hb b .self, beq_iff_eq.1 h]

mutual
theorem equal_trans (H : Nat → EV) : ∀ (a b c : EV), Lives H a → Lives H b → Lives H c → Numbers (fun n _ => Exact n) a →
    Numbers (fun n _ => Exact n) b → Numbers (fun n _ => Exact n) c →
    equal a b = true → equal b c = true → equal a c = true
  | .node aa ak aw ash al, .node ba bk bw bsh bl, .node ca ck cw csh cl, La, Lb, Lc, ha, hb, hc, h1, h2 => by
    have hi := equalItems_trans H al bl cl La.kid Lb.kid Lc.kid ha.kid hb.kid hc.kid
    have hm := equalMembers_trans H al bl cl La.kid Lb.kid Lc.kid ha.kid hb.kid hc.kid
    rw [equal.eq_def] at h1 h2 ⊢
    dsimp only [EV.sh, EV.kids, EV.wrapped] at h1 h2 ⊢
    cases ash <;> cases bsh <;> simp only [Bool.false_eq_true] at h1 <;> cases csh <;>
      simp only [Bool.false_eq_true] at h2 ⊢
    · rw [beq_iff_eq] at *; exact h1.trans h2
    · have e1 : Exact _ := ha _ .self _ rfl
      have e2 : Exact _ := hb _ .self _ rfl
      have e3 : Exact _ := hc _ .self _ rfl
      rw [numEq_exact e1 e2, deq_iff] at h1
      rw [numEq_exact e2 e3, deq_iff] at h2
      rw [numEq_exact e1 e3, deq_iff]
      exact ⟨h1.1.trans h2.1, h1.2⟩
    · rw [beq_iff_eq] at *; exact h1.trans h2
    · rw [Bool.and_eq_true, beq_iff_eq] at *
      exact ⟨h2.1.trans h1.1, hi h1.1 h2.1 h1.2 h2.2⟩
    · rw [Bool.and_eq_true, beq_iff_eq] at *
      exact ⟨h2.1.trans h1.1, hm h1.1 h2.1 h1.2 h2.2⟩
theorem equalItems_trans (H : Nat → EV) : ∀ (l r s : List EV), (∀ x ∈ l, Lives H x) → (∀ x ∈ r, Lives H x) → (∀ x ∈ s, Lives H x) →
    (∀ x ∈ l, Numbers (fun n _ => Exact n) x) → (∀ x ∈ r, Numbers (fun n _ => Exact n) x) →
    (∀ x ∈ s, Numbers (fun n _ => Exact n) x) → r.length = l.length → s.length = r.length →
    equalItems l r = true → equalItems r s = true → equalItems l s = true
  | [], _, _, _, _, _, _, _, _, _, _, _, _ => by simp [equalItems]
  | _ :: _, [], _, _, _, _, _, _, _, h, _, _, _ => by simp at h
  | _ :: _, _ :: _, [], _, _, _, _, _, _, _, h, _, _ => by simp at h
  | a :: l, b :: r, c :: s, Ll, Lr, Ls, hl, hr, hs, e1, e2, h1, h2 => by
    rw [equalItems, Bool.and_eq_true] at *
    refine ⟨?_, equalItems_trans H l r s (fun x hx => Ll x (by simp [hx])) (fun x hx => Lr x (by simp [hx]))
      (fun x hx => Ls x (by simp [hx])) (fun x hx => hl x (by simp [hx])) (fun x hx => hr x (by simp [hx]))
      (fun x hx => hs x (by simp [hx])) (by simpa using e1) (by simpa using e2) h1.2 h2.2⟩
    have La := Ll a (by simp)
    have Lb := Lr b (by simp)
    have Lc := Ls c (by simp)
    rcases Bool.or_eq_true _ _ ▸ h1.1 with i1 | i1
    · rw [same_of_addr La Lb i1]; exact h2.1
    · rcases Bool.or_eq_true _ _ ▸ h2.1 with i2 | i2
      · rw [← same_of_addr Lb Lc i2]; exact h1.1
      · rw [Bool.or_eq_true]
        exact Or.inr (equal_trans H a b c La Lb Lc (hl a (by simp)) (hr b (by simp)) (hs c (by simp)) i1 i2)
theorem equalMembers_trans (H : Nat → EV) : ∀ (l r s : List EV), (∀ x ∈ l, Lives H x) → (∀ x ∈ r, Lives H x) → (∀ x ∈ s, Lives H x) →
    (∀ x ∈ l, Numbers (fun n _ => Exact n) x) → (∀ x ∈ r, Numbers (fun n _ => Exact n) x) →
    (∀ x ∈ s, Numbers (fun n _ => Exact n) x) → r.length = l.length → s.length = r.length →
    equalMembers l r = true → equalMembers r s = true → equalMembers l s = true
  | [], _, _, _, _, _, _, _, _, _, _, _, _ => by simp [equalMembers]
  | _ :: _, [], _, _, _, _, _, _, _, h, _, _, _ => by simp at h
  | _ :: _, _ :: _, [], _, _, _, _, _, _, _, h, _, _ => by simp at h
  | a :: l, b :: r, c :: s, Ll, Lr, Ls, hl, hr, hs, e1, e2, h1, h2 => by
    rw [equalMembers, Bool.and_eq_true] at *
    refine ⟨?_, equalMembers_trans H l r s (fun x hx => Ll x (by simp [hx])) (fun x hx => Lr x (by simp [hx]))
      (fun x hx => Ls x (by simp [hx])) (fun x hx => hl x (by simp [hx])) (fun x hx => hr x (by simp [hx]))
      (fun x hx => hs x (by simp [hx])) (by simpa using e1) (by simpa using e2) h1.2 h2.2⟩
    have La := Ll a (by simp)
    have Lb := Lr b (by simp)
    have Lc := Ls c (by simp)
    rcases Bool.or_eq_true _ _ ▸ h1.1 with i1 | i1
    · rw [same_of_addr La Lb i1]; exact h2.1
    · rcases Bool.or_eq_true _ _ ▸ h2.1 with i2 | i2
      · rw [← same_of_addr Lb Lc i2]; exact h1.1
      · rw [Bool.and_eq_true, beq_iff_eq] at i1 i2
        rw [Bool.or_eq_true, Bool.and_eq_true, beq_iff_eq]
        exact Or.inr ⟨beq_iff_eq.2 (i1.1.trans i2.1),
          equal_trans H a b c La Lb Lc (hl a (by simp)) (hr b (by simp)) (hs c (by simp)) i1.2 i2.2⟩
end

/-- **C44 (partial).** Equality is transitive for values (of one memory) whose integers are exact as doubles. Missing:
larger integers, see `C44_violation_transitivity`. -/
theorem C44_transitive_partial (H : Nat → EV) (a b c : EV) (La : Lives H a) (Lb : Lives H b) (Lc : Lives H c)
    (ha : Numbers (fun n _ => Exact n) a) (hb : Numbers (fun n _ => Exact n) b) (hc : Numbers (fun n _ => Exact n) c)
    (h1 : opEq a b = true) (h2 : opEq b c = true) : opEq a c = true := by
  rw [opEq, Bool.or_eq_true] at *
  rcases h1 with h1 | h1
  · rw [← same_of_addr Lb La h1]; exact h2
  · rcases h2 with h2 | h2
    · rw [same_of_addr Lc Lb h2]; exact Or.inr h1
    · exact Or.inr (equal_trans H c b a Lc Lb La hc hb ha h2 h1)

/-! ## C43 — comparison -/

theorem tri_swap {p q : Bool} (h : ¬ (p = true ∧ q = true)) : tri q p = - tri p q := by
  cases p <;> cases q <;> simp_all [tri]

theorem tri_nat (x y : Nat) : tri (decide (y < x)) (decide (y > x)) = - tri (decide (x < y)) (decide (x > y)) := by
  refine tri_swap (p := decide (x < y)) (q := decide (x > y)) ?_
  simp only [decide_eq_true_eq]; omega

theorem tri_int (x y : Int) : tri (decide (y < x)) (decide (y > x)) = - tri (decide (x < y)) (decide (x > y)) := by
  refine tri_swap (p := decide (x < y)) (q := decide (x > y)) ?_
  simp only [decide_eq_true_eq]; omega

theorem dlt_asymm (x y : D) : ¬ (dlt x y = true ∧ dlt y x = true) := by
  cases x with
  | nan => simp [dlt]
  | fin x => cases y with
    | nan => simp [dlt]
    | fin y => simp only [dlt, decide_eq_true_eq]; omega
    | inf n => cases n <;> simp [dlt]
  | inf m => cases y with
    | nan => cases m <;> simp [dlt]
    | fin y => cases m <;> simp [dlt]
    | inf n => cases m <;> cases n <;> simp [dlt]

theorem numCmp_swap (a b : Num) : numCmp b a = - numCmp a b := by
  unfold numCmp
  rw [Bool.and_comm b.isU, Bool.and_comm b.isI]
  split
  · exact tri_nat _ _
  · split
    · exact tri_int _ _
    · exact tri_swap (dlt_asymm _ _)

theorem sgn_swap (a b : Bytes) : Eq.sgn (cmpBytes b a) = - Eq.sgn (cmpBytes a b) := by
  rw [cmpBytes_swap a b]
  cases cmpBytes a b <;> rfl

mutual
theorem cmp_swap : ∀ (a b : EV), Eq.compare b a = - Eq.compare a b
  | .node aa ak aw ash al, .node ba bk bw bsh bl => by
    have hi := cmpItems_swap al bl
    have hm := cmpMembers_swap al bl
    rw [Eq.compare.eq_def, Eq.compare.eq_def]
    dsimp only [EV.sh, EV.kids]
    cases ash <;> cases bsh <;> first | exact hi | exact hm | exact numCmp_swap _ _ | exact sgn_swap _ _ | rfl | skip
    rename_i x y
    cases x <;> cases y <;> rfl
theorem cmpItems_swap : ∀ (l r : List EV), compareItems r l = - compareItems l r
  | [], [] => rfl
  | [], _ :: _ => rfl
  | _ :: _, [] => rfl
  | a :: l, b :: r => by
    rw [compareItems, compareItems, cmp_swap a b, cmpItems_swap l r]
    split <;> split <;> omega
theorem cmpMembers_swap : ∀ (l r : List EV), compareMembers r l = - compareMembers l r
  | [], [] => rfl
  | [], _ :: _ => rfl
  | _ :: _, [] => rfl
  | a :: l, b :: r => by
    rw [compareMembers, compareMembers, cmp_swap a b, cmpMembers_swap l r, sgn_swap a.key b.key]
    split <;> split <;> (try split) <;> (try split) <;> omega
end

/-- **C43.** Swapping the arguments swaps the sign, for all values; a value compared with itself gives 0. -/
theorem C43_antisymmetric (a b : EV) : (Eq.compare a b < 0 ↔ 0 < Eq.compare b a) ∧ Eq.compare a a = 0 := by
  have h1 := cmp_swap a b
  have h2 := cmp_swap a a
  omega

/-- Numbers on which the comparison is meant: integers exact as doubles and within the signed range, no NaN. -/
def Nice : Num → Prop
  | .zero => True
  | .uint n | .precU n => rnd n = n ∧ n < 2 ^ 63
  | .int i | .precI i => rnd i.natAbs = i.natAbs
  | .dbl b | .precD b => dval b ≠ .nan

theorem nice_exact {n : Num} (h : Nice n) : Exact n := by
  cases n <;> first | exact h.1 | exact h | trivial

theorem nice_nan {n : Num} (h : Nice n) : n.dbl' ≠ .nan := by
  cases n <;> first | exact h | (simp only [Num.dbl']; unfold dint; simp) | simp [Num.dbl']

/-- The integer a number with an integer flag holds. -/
def intOf : Num → Int
  | .zero => 0
  | .uint n | .precU n => n
  | .int i | .precI i => i
  | _ => 0

theorem toSigned_small {n : Nat} (h : n < 2 ^ 63) : toSigned n = n := by
  unfold toSigned
  rw [Nat.mod_eq_of_lt (show n < 2 ^ 64 by omega), if_pos h]

theorem nice_int {n : Num} (h : Nice n) (hi : n.isI = true) : n.dbl' = .fin (intOf n * one) ∧ n.getI = intOf n ∧
    (n.isU = true → (n.getU : Int) = intOf n) := by
  cases n with
  | zero => exact ⟨by rw [intOf, Int.zero_mul]; rfl, rfl, fun _ => rfl⟩
  | uint n => exact ⟨dint_exact_nat h.1, toSigned_small h.2, fun _ => rfl⟩
  | precU n => exact ⟨dint_exact_nat h.1, toSigned_small h.2, fun _ => rfl⟩
  | int i => exact ⟨dint_exact h, rfl, fun hc => by simp [Num.isU] at hc⟩
  | precI i => exact ⟨dint_exact h, rfl, fun hc => by simp [Num.isU] at hc⟩
  | dbl b => simp [Num.isI] at hi
  | precD b => simp [Num.isI] at hi

theorem dlt_mul (u : Int) (hu : 0 < u) (x y : Int) : dlt (.fin (x * u)) (.fin (y * u)) = decide (x < y) := by
  rw [show dlt (.fin (x * u)) (.fin (y * u)) = decide (x * u < y * u) from rfl]
  have : x * u < y * u ↔ x < y :=
    ⟨fun h => Int.lt_of_mul_lt_mul_right h (by omega), fun h => Int.mul_lt_mul_of_pos_right h hu⟩
  simp only [this]

theorem numCmp_nice {a b : Num} (ha : Nice a) (hb : Nice b) : numCmp a b = tri (dlt a.dbl' b.dbl') (dlt b.dbl' a.dbl') := by
  unfold numCmp
  have hui : ∀ n : Num, n.isU = true → n.isI = true := by intro n; cases n <;> simp [Num.isU, Num.isI]
  split
  · rename_i h
    rw [Bool.and_eq_true] at h
    obtain ⟨a1, a2, a3⟩ := nice_int ha (hui a h.1)
    obtain ⟨b1, b2, b3⟩ := nice_int hb (hui b h.2)
    have a4 := a3 h.1
    have b4 := b3 h.2
    rw [a1, b1, dlt_mul one one_pos, dlt_mul one one_pos]
    have e1 : (a.getU < b.getU) ↔ (intOf a < intOf b) := by omega
    have e2 : (a.getU > b.getU) ↔ (intOf b < intOf a) := by omega
    simp only [e1, e2]
  · split
    · rename_i h
      rw [Bool.and_eq_true] at h
      obtain ⟨a1, a2, a3⟩ := nice_int ha h.1
      obtain ⟨b1, b2, b3⟩ := nice_int hb h.2
      rw [a1, b1, dlt_mul one one_pos, dlt_mul one one_pos, a2, b2]
    · rfl

/-- Transitivity with its strict part, as a statement about three results. -/
def TransAt (ab bc ac : Int) : Prop := ab ≤ 0 → bc ≤ 0 → ac ≤ 0 ∧ (ac = 0 → ab = 0 ∧ bc = 0)

theorem dcmp_trans (x y z : D) (hx : x ≠ .nan) (hy : y ≠ .nan) (hz : z ≠ .nan) :
    TransAt (tri (dlt x y) (dlt y x)) (tri (dlt y z) (dlt z y)) (tri (dlt x z) (dlt z x)) := by
  unfold TransAt
  rcases x with _ | x | x <;> rcases y with _ | y | y <;> rcases z with _ | z | z <;> (try contradiction) <;>
    (try cases x) <;> (try cases y) <;> (try cases z) <;> simp only [dlt, tri] <;> (try simp) <;>
    (try (repeat' split)) <;> (try omega)

theorem sgn_trans (a b c : Bytes) : TransAt (Eq.sgn (cmpBytes a b)) (Eq.sgn (cmpBytes b c)) (Eq.sgn (cmpBytes a c)) := by
  have hlt : ∀ x y : Bytes, Eq.sgn (cmpBytes x y) ≤ 0 ↔ cmpBytes x y = .lt ∨ x = y := by
    intro x y
    rw [← cmpBytes_eq_iff]
    cases cmpBytes x y <;> simp [Eq.sgn]
  have h0 : ∀ x y : Bytes, Eq.sgn (cmpBytes x y) = 0 ↔ x = y := by
    intro x y
    rw [← cmpBytes_eq_iff]
    cases cmpBytes x y <;> simp [Eq.sgn]
  intro h1 h2
  rw [hlt] at h1 h2
  rw [hlt, h0, h0, h0]
  rcases h1 with h1 | h1 <;> rcases h2 with h2 | h2
  · have := cmpBytes_lt_trans h1 h2
    exact ⟨Or.inl this, fun he => by rw [he, cmpBytes_self] at this; cases this⟩
  · rw [← h2]; exact ⟨Or.inl h1, fun he => by rw [he, cmpBytes_self] at h1; cases h1⟩
  · rw [h1]; exact ⟨Or.inl h2, fun he => ⟨rfl, he⟩⟩
  · rw [h1, h2]; exact ⟨Or.inr rfl, fun _ => ⟨rfl, rfl⟩⟩

theorem lex_trans {h1 h2 h3 t1 t2 t3 : Int} (h : TransAt h1 h2 h3) (t : TransAt t1 t2 t3) :
    TransAt (if h1 ≠ 0 then h1 else t1) (if h2 ≠ 0 then h2 else t2) (if h3 ≠ 0 then h3 else t3) := by
  unfold TransAt at *
  intro a b
  have a' : h1 ≤ 0 := by split at a <;> omega
  have b' : h2 ≤ 0 := by split at b <;> omega
  have c := h a' b'
  by_cases h0 : h3 = 0
  · have := c.2 h0
    rw [if_neg (by omega)] at a b
    rw [if_neg (by omega), if_neg (by omega), if_neg (by omega)]
    exact t a b
  · rw [if_pos h0]
    exact ⟨c.1, fun hc => absurd hc h0⟩

theorem bool_trans (x y z : Bool) : TransAt (if x == y then 0 else if x then 1 else -1) (if y == z then 0 else if y then 1 else -1)
    (if x == z then 0 else if x then 1 else -1) := by
  unfold TransAt
  cases x <;> cases y <;> cases z <;> simp

theorem tri_trans (x y z : Nat) : TransAt (tri (decide (x < y)) (decide (x > y))) (tri (decide (y < z)) (decide (y > z)))
    (tri (decide (x < z)) (decide (x > z))) := by
  unfold TransAt tri
  simp only [decide_eq_true_eq]
  repeat' split
  all_goals omega

theorem cmp_type {a b : EV} (h : typeNo a.sh ≠ typeNo b.sh) :
    Eq.compare a b = tri (decide (typeNo a.sh < typeNo b.sh)) (decide (typeNo a.sh > typeNo b.sh)) := by
  obtain ⟨aa, ak, aw, ash, al⟩ := a
  obtain ⟨ba, bk, bw, bsh, bl⟩ := b
  rw [Eq.compare.eq_def]
  dsimp only [EV.sh, EV.kids] at h ⊢
  cases ash <;> cases bsh <;> first | rfl | exact absurd rfl h

theorem cmp_le_type {a b : EV} (h : Eq.compare a b ≤ 0) : typeNo a.sh ≤ typeNo b.sh := by
  by_cases ht : typeNo a.sh = typeNo b.sh
  · omega
  · rw [cmp_type ht, tri] at h
    simp only [decide_eq_true_eq] at h
    split at h
    · omega
    · split at h <;> omega

mutual
theorem cmp_trans : ∀ (a b c : EV), Numbers (fun n _ => Nice n) a → Numbers (fun n _ => Nice n) b →
    Numbers (fun n _ => Nice n) c → TransAt (Eq.compare a b) (Eq.compare b c) (Eq.compare a c)
  | .node aa ak aw ash al, .node ba bk bw bsh bl, .node ca ck cw csh cl, ha, hb, hc => by
    intro h1 h2
    have t1 := cmp_le_type h1
    have t2 := cmp_le_type h2
    dsimp only [EV.sh] at t1 t2
    by_cases ht : typeNo ash = typeNo csh
    · have e1 : typeNo ash = typeNo bsh := by omega
      have e2 : typeNo bsh = typeNo csh := by omega
      have hi := cmpItems_trans al bl cl ha.kid hb.kid hc.kid
      have hm := cmpMembers_trans al bl cl ha.kid hb.kid hc.kid
      revert h1 h2
      change TransAt _ _ _
      rw [Eq.compare.eq_def, Eq.compare.eq_def, Eq.compare.eq_def]
      dsimp only [EV.sh, EV.kids]
      cases ash <;> cases bsh <;> (try (exfalso; revert e1; simp [typeNo]; done)) <;> cases csh <;>
        (try (exfalso; revert e2; simp [typeNo]; done))
      · exact tri_trans 6 6 6
      · exact tri_trans 0 0 0
      · exact bool_trans _ _ _
      · have n1 : Nice _ := ha _ .self _ rfl
        have n2 : Nice _ := hb _ .self _ rfl
        have n3 : Nice _ := hc _ .self _ rfl
        dsimp only
        rw [numCmp_nice n1 n2, numCmp_nice n2 n3, numCmp_nice n1 n3]
        exact dcmp_trans _ _ _ (nice_nan n1) (nice_nan n2) (nice_nan n3)
      · exact sgn_trans _ _ _
      · exact hi
      · exact hm
    · have e : Eq.compare (.node aa ak aw ash al) (.node ca ck cw csh cl) = -1 := by
        rw [cmp_type (a := .node aa ak aw ash al) (b := .node ca ck cw csh cl) ht, tri, if_pos]
        exact decide_eq_true (show typeNo ash < typeNo csh by omega)
      rw [e]
      omega
theorem cmpItems_trans : ∀ (l r s : List EV), (∀ x ∈ l, Numbers (fun n _ => Nice n) x) → (∀ x ∈ r, Numbers (fun n _ => Nice n) x) →
    (∀ x ∈ s, Numbers (fun n _ => Nice n) x) → TransAt (compareItems l r) (compareItems r s) (compareItems l s)
  | [], [], [], _, _, _ => by simp [compareItems, TransAt]
  | [], [], _ :: _, _, _, _ => by simp [compareItems, TransAt]
  | [], _ :: _, [], _, _, _ => by simp [compareItems, TransAt]
  | [], _ :: _, _ :: _, _, _, _ => by intro h1 h2; simp [compareItems]
  | _ :: _, [], _, _, _, _ => by simp [compareItems, TransAt]
  | _ :: _, _ :: _, [], _, _, _ => by intro h1 h2; simp [compareItems] at h2
  | a :: l, b :: r, c :: s, hl, hr, hs => by
    rw [compareItems, compareItems, compareItems]
    exact lex_trans (cmp_trans a b c (hl a (by simp)) (hr b (by simp)) (hs c (by simp)))
      (cmpItems_trans l r s (fun x hx => hl x (by simp [hx])) (fun x hx => hr x (by simp [hx])) (fun x hx => hs x (by simp [hx])))
theorem cmpMembers_trans : ∀ (l r s : List EV), (∀ x ∈ l, Numbers (fun n _ => Nice n) x) → (∀ x ∈ r, Numbers (fun n _ => Nice n) x) →
    (∀ x ∈ s, Numbers (fun n _ => Nice n) x) → TransAt (compareMembers l r) (compareMembers r s) (compareMembers l s)
  | [], [], [], _, _, _ => by simp [compareMembers, TransAt]
  | [], [], _ :: _, _, _, _ => by simp [compareMembers, TransAt]
  | [], _ :: _, [], _, _, _ => by simp [compareMembers, TransAt]
  | [], _ :: _, _ :: _, _, _, _ => by intro h1 h2; simp [compareMembers]
  | _ :: _, [], _, _, _, _ => by simp [compareMembers, TransAt]
  | _ :: _, _ :: _, [], _, _, _ => by intro h1 h2; simp [compareMembers] at h2
  | a :: l, b :: r, c :: s, hl, hr, hs => by
    rw [compareMembers, compareMembers, compareMembers]
    exact lex_trans (sgn_trans a.key b.key c.key) (lex_trans (cmp_trans a b c (hl a (by simp)) (hr b (by simp)) (hs c (by simp)))
      (cmpMembers_trans l r s (fun x hx => hl x (by simp [hx])) (fun x hx => hr x (by simp [hx])) (fun x hx => hs x (by simp [hx]))))
end

/-- **C43 (partial).** "Not above" is transitive for values without NaN whose integers are exact as doubles and whose
unsigned integers are below 2^63; so is equivalence. Missing: the other numbers, see the violations. -/
theorem C43_transitive_partial (a b c : EV) (ha : Numbers (fun n _ => Nice n) a) (hb : Numbers (fun n _ => Nice n) b)
    (hc : Numbers (fun n _ => Nice n) c) (h1 : Eq.compare a b ≤ 0) (h2 : Eq.compare b c ≤ 0) :
    Eq.compare a c ≤ 0 ∧ (Eq.compare a c = 0 → Eq.compare a b = 0 ∧ Eq.compare b c = 0) := cmp_trans a b c ha hb hc h1 h2

/-- Values without containers. -/
def leaf (a : Nat) (s : Sh) : EV := .node a [] false s []

/-- **C43, violation.** Unsigned integers from 2^63 are negative when compared with a signed integer: signed 5 = unsigned 5 <
2^63 (unsigned), yet signed 5 is above 2^63. -/
theorem C43_violation_large_unsigned : Eq.compare (leaf 1 (.num (.int 5))) (leaf 2 (.num (.uint 5))) = 0 ∧
    Eq.compare (leaf 2 (.num (.uint 5))) (leaf 3 (.num (.uint (2 ^ 63)))) = -1 ∧
    Eq.compare (leaf 1 (.num (.int 5))) (leaf 3 (.num (.uint (2 ^ 63)))) = 1 := by decide +kernel

/-- **C43, violation.** NaN compares as equal to every number, 1 and 2 included. -/
theorem C43_violation_nan : Eq.compare (leaf 1 (.num (.uint 2))) (leaf 2 (.num (.dbl 0x7FF8000000000000))) = 0 ∧
    Eq.compare (leaf 2 (.num (.dbl 0x7FF8000000000000))) (leaf 3 (.num (.uint 1))) = 0 ∧
    Eq.compare (leaf 1 (.num (.uint 2))) (leaf 3 (.num (.uint 1))) = 1 := by decide +kernel

/-- **C43, violation.** Integers are compared with doubles after rounding: 2^53+1 = 2.0^53 = 2^53, yet 2^53+1 > 2^53. -/
theorem C43_violation_rounding :
    Eq.compare (leaf 1 (.num (.uint (2 ^ 53 + 1)))) (leaf 2 (.num (.dbl 0x4340000000000000))) = 0 ∧
    Eq.compare (leaf 2 (.num (.dbl 0x4340000000000000))) (leaf 3 (.num (.uint (2 ^ 53)))) = 0 ∧
    Eq.compare (leaf 1 (.num (.uint (2 ^ 53 + 1)))) (leaf 3 (.num (.uint (2 ^ 53)))) = 1 := by decide +kernel

/-- **C44, violation.** 2^53+1 == 2.0^53 and 2.0^53 == 2^53, but 2^53+1 != 2^53. -/
theorem C44_violation_transitivity :
    opEq (leaf 1 (.num (.uint (2 ^ 53 + 1)))) (leaf 2 (.num (.dbl 0x4340000000000000))) = true ∧
    opEq (leaf 2 (.num (.dbl 0x4340000000000000))) (leaf 3 (.num (.uint (2 ^ 53)))) = true ∧
    opEq (leaf 1 (.num (.uint (2 ^ 53 + 1)))) (leaf 3 (.num (.uint (2 ^ 53)))) = false := by decide +kernel

/-- **C44, violation.** A number that carries a custom object hides its class: the result depends on the order. -/
theorem C44_violation_symmetry :
    opEq (.node 1 [] true (.num (.uint (2 ^ 53 + 1))) []) (leaf 2 (.num (.uint (2 ^ 53)))) = true ∧
    opEq (leaf 2 (.num (.uint (2 ^ 53)))) (.node 1 [] true (.num (.uint (2 ^ 53 + 1))) []) = false := by decide +kernel

/-- **C44, violation.** Values with the same content at different addresses differ when there is an undefined or
a NaN in them. -/
theorem C44_violation_copies :
    opEq (leaf 1 (.num (.dbl 0x7FF8000000000000))) (leaf 2 (.num (.dbl 0x7FF8000000000000))) = false ∧
    opEq (leaf 1 .undef) (leaf 2 .undef) = false := by decide +kernel

/-! ## C80 — comparison agrees with equality -/

theorem tri_zero (x y : D) (hx : x ≠ .nan) (hy : y ≠ .nan) : tri (dlt x y) (dlt y x) = 0 ↔ deq x y = true := by
  rcases x with _ | x | x <;> rcases y with _ | y | y <;> (try contradiction) <;>
    (try cases x) <;> (try cases y) <;> simp only [dlt, tri, deq] <;> (try simp) <;> (try omega)

theorem sgn_zero (x y : Bytes) : Eq.sgn (cmpBytes x y) = 0 ↔ x = y := by
  rw [← cmpBytes_eq_iff]
  cases cmpBytes x y <;> simp [Eq.sgn]

theorem cmp_self (a : EV) : Eq.compare a a = 0 := by have := cmp_swap a a; omega

mutual
theorem cmp_zero (H : Nat → EV) : ∀ (a b : EV), Lives H a → Lives H b → Numbers (fun n _ => Nice n) a → Numbers (fun n _ => Nice n) b →
    NoUndef a → (Eq.compare a b = 0 ↔ equal a b = true)
  | .node aa ak aw ash al, .node ba bk bw bsh bl, La, Lb, ha, hb, hu => by
    have hi := cmpItems_zero H al bl La.kid Lb.kid ha.kid hb.kid hu.kid
    have hm := cmpMembers_zero H al bl La.kid Lb.kid ha.kid hb.kid hu.kid
    have hun := hu _ .self
    rw [Eq.compare.eq_def, equal.eq_def]
    dsimp only [EV.sh, EV.kids, EV.wrapped] at hun ⊢
    cases ash <;> cases bsh <;> first
      | contradiction
      | (simp only [typeNo, tri]; simp; done)
      | (simp only [beq_iff_eq, Bool.and_eq_true]; exact hi)
      | (simp only [beq_iff_eq, Bool.and_eq_true]; exact hm)
      | skip
    · rename_i x y; cases x <;> cases y <;> simp
    · have n1 : Nice _ := ha _ .self _ rfl
      have n2 : Nice _ := hb _ .self _ rfl
      dsimp only
      rw [numCmp_nice n1 n2, numEq_exact (nice_exact n1) (nice_exact n2)]
      exact tri_zero _ _ (nice_nan n1) (nice_nan n2)
    · dsimp only; rw [sgn_zero, beq_iff_eq]
theorem cmpItems_zero (H : Nat → EV) : ∀ (l r : List EV), (∀ x ∈ l, Lives H x) → (∀ x ∈ r, Lives H x) →
    (∀ x ∈ l, Numbers (fun n _ => Nice n) x) → (∀ x ∈ r, Numbers (fun n _ => Nice n) x) → (∀ x ∈ l, NoUndef x) →
    (compareItems l r = 0 ↔ r.length = l.length ∧ equalItems l r = true)
  | [], [], _, _, _, _, _ => by simp [compareItems, equalItems]
  | [], _ :: _, _, _, _, _, _ => by simp [compareItems]
  | _ :: _, [], _, _, _, _, _ => by simp [compareItems]
  | a :: l, b :: r, Ll, Lr, hl, hr, hu => by
    have h1 := cmp_zero H a b (Ll a (by simp)) (Lr b (by simp)) (hl a (by simp)) (hr b (by simp)) (hu a (by simp))
    have h2 := cmpItems_zero H l r (fun x hx => Ll x (by simp [hx])) (fun x hx => Lr x (by simp [hx]))
      (fun x hx => hl x (by simp [hx])) (fun x hx => hr x (by simp [hx])) (fun x hx => hu x (by simp [hx]))
    have h3 : (a.addr == b.addr || equal a b) = true ↔ Eq.compare a b = 0 := by
      rw [Bool.or_eq_true, h1]
      constructor
      · rintro (h | h)
        · have : a = b := same_of_addr (Ll a (by simp)) (Lr b (by simp)) h
          rw [← h1, ← this, cmp_self]
        · exact h
      · exact Or.inr
    rw [compareItems, equalItems, Bool.and_eq_true, h3, List.length_cons, List.length_cons, Nat.add_right_cancel_iff]
    by_cases h0 : Eq.compare a b = 0
    · rw [if_neg (by simp [h0]), h2]
      exact ⟨fun h => ⟨h.1, h0, h.2⟩, fun h => ⟨h.1, h.2.2⟩⟩
    · rw [if_pos h0]
      exact ⟨fun h => absurd h h0, fun h => h.2.1⟩
theorem cmpMembers_zero (H : Nat → EV) : ∀ (l r : List EV), (∀ x ∈ l, Lives H x) → (∀ x ∈ r, Lives H x) →
    (∀ x ∈ l, Numbers (fun n _ => Nice n) x) → (∀ x ∈ r, Numbers (fun n _ => Nice n) x) → (∀ x ∈ l, NoUndef x) →
    (compareMembers l r = 0 ↔ r.length = l.length ∧ equalMembers l r = true)
  | [], [], _, _, _, _, _ => by simp [compareMembers, equalMembers]
  | [], _ :: _, _, _, _, _, _ => by simp [compareMembers]
  | _ :: _, [], _, _, _, _, _ => by simp [compareMembers]
  | a :: l, b :: r, Ll, Lr, hl, hr, hu => by
    have h1 := cmp_zero H a b (Ll a (by simp)) (Lr b (by simp)) (hl a (by simp)) (hr b (by simp)) (hu a (by simp))
    have h2 := cmpMembers_zero H l r (fun x hx => Ll x (by simp [hx])) (fun x hx => Lr x (by simp [hx]))
      (fun x hx => hl x (by simp [hx])) (fun x hx => hr x (by simp [hx])) (fun x hx => hu x (by simp [hx]))
    have h3 : (a.addr == b.addr || (a.key == b.key && equal a b)) = true ↔ a.key = b.key ∧ Eq.compare a b = 0 := by
      rw [Bool.or_eq_true, Bool.and_eq_true, h1, beq_iff_eq (a := a.key)]
      constructor
      · rintro (h | h)
        · have : a = b := same_of_addr (Ll a (by simp)) (Lr b (by simp)) h
          rw [← h1, ← this, cmp_self]
          exact ⟨rfl, rfl⟩
        · exact h
      · exact Or.inr
    rw [compareMembers, equalMembers, Bool.and_eq_true, h3, List.length_cons, List.length_cons, Nat.add_right_cancel_iff]
    by_cases hk : a.key = b.key
    · rw [if_neg (by rw [not_not, sgn_zero]; exact hk)]
      by_cases h0 : Eq.compare a b = 0
      · rw [if_neg (by simp [h0]), h2]
        exact ⟨fun h => ⟨h.1, ⟨hk, h0⟩, h.2⟩, fun h => ⟨h.1, h.2.2⟩⟩
      · rw [if_pos h0]
        exact ⟨fun h => absurd h h0, fun h => h.2.1.2⟩
    · have : Eq.sgn (cmpBytes a.key b.key) ≠ 0 := by rw [Ne, sgn_zero]; exact hk
      rw [if_pos this]
      exact ⟨fun h => absurd h this, fun h => absurd h.2.1.1 hk⟩
end

/-- **C80.** Comparison gives 0 exactly for equal values (of one memory), when there is no undefined and no NaN inside,
integers are exact as doubles and unsigned ones below 2^63. -/
theorem C80_zero_iff_equal_partial (H : Nat → EV) (a b : EV) (La : Lives H a) (Lb : Lives H b)
    (ha : Numbers (fun n _ => Nice n) a) (hb : Numbers (fun n _ => Nice n) b) (hu : NoUndef b) :
    Eq.compare a b = 0 ↔ opEq a b = true := by
  have h := cmp_zero H b a Lb La hb ha hu
  have hs := cmp_swap a b
  rw [opEq, Bool.or_eq_true, ← h]
  constructor
  · intro h0; right; omega
  · rintro (h0 | h0)
    · rw [same_of_addr Lb La h0, cmp_self]
    · omega

/-- **C80, violation.** Comparison of two undefined values gives 0 though they are not equal; the same for NaN. -/
theorem C80_violation : Eq.compare (leaf 1 .undef) (leaf 2 .undef) = 0 ∧ opEq (leaf 1 .undef) (leaf 2 .undef) = false ∧
    Eq.compare (leaf 1 (.num (.dbl 0x7FF8000000000000))) (leaf 2 (.num (.uint 1))) = 0 ∧
    opEq (leaf 1 (.num (.dbl 0x7FF8000000000000))) (leaf 2 (.num (.uint 1))) = false ∧
    Eq.compare (leaf 1 (.num (.int (-1)))) (leaf 2 (.num (.uint (2 ^ 64 - 1)))) = 0 ∧
    opEq (leaf 1 (.num (.int (-1)))) (leaf 2 (.num (.uint (2 ^ 64 - 1)))) = false := by decide +kernel

/-! ## C22 — hash and equality -/

theorem mag_lt {e m e' m' : Nat} (hm : m < 2 ^ 52) (h : e < e') : mag e m < mag e' m' := by
  unfold mag
  rw [if_neg (show ¬ e' = 0 by omega)]
  have hpos : 0 < 2 ^ (e' - 1) := Nat.two_pow_pos _
  split
  · calc m < 2 ^ 52 := hm
      _ ≤ 2 ^ 52 + m' := by omega
      _ ≤ (2 ^ 52 + m') * 2 ^ (e' - 1) := Nat.le_mul_of_pos_right _ hpos
  · have h2 : 2 ^ (e' - 1) = 2 ^ (e - 1) * 2 ^ (e' - e) := by rw [← Nat.pow_add]; congr 1; omega
    have h3 : 2 ≤ 2 ^ (e' - e) := by
      calc 2 = 2 ^ 1 := rfl
        _ ≤ 2 ^ (e' - e) := Nat.pow_le_pow_right (by omega) (by omega)
    have hp2 : 0 < 2 ^ (e - 1) := Nat.two_pow_pos _
    rw [h2]
    calc (2 ^ 52 + m) * 2 ^ (e - 1) < (2 ^ 52 * 2) * 2 ^ (e - 1) := Nat.mul_lt_mul_of_pos_right (by omega) hp2
      _ = 2 ^ 52 * (2 ^ (e - 1) * 2) := by rw [Nat.mul_assoc, Nat.mul_comm 2]
      _ ≤ (2 ^ 52 + m') * (2 ^ (e - 1) * 2 ^ (e' - e)) := Nat.mul_le_mul (by omega) (Nat.mul_le_mul_left _ h3)

theorem mag_inj {e m e' m' : Nat} (hm : m < 2 ^ 52) (hm' : m' < 2 ^ 52) (h : mag e m = mag e' m') : e = e' ∧ m = m' := by
  have he : e = e' := by
    rcases Nat.lt_trichotomy e e' with hc | hc | hc
    · have := mag_lt (m' := m') hm hc; omega
    · exact hc
    · have := mag_lt (m' := m) hm' hc; omega
  refine ⟨he, ?_⟩
  subst he
  unfold mag at h
  split at h
  · exact h
  · have := Nat.eq_of_mul_eq_mul_right (Nat.two_pow_pos _) h
    omega

/-- Equal doubles other than zeros have equal bits. -/
theorem dval_inj {a b : Nat} (ha : a < 2 ^ 64) (hb : b < 2 ^ 64) (h : dval a = dval b) (hn : dval a ≠ .nan) (h0 : dval a ≠ .fin 0) :
    a = b := by
  have ea := Nat.mod_lt (a / 2 ^ 52) (show 0 < 2048 by omega)
  have eb := Nat.mod_lt (b / 2 ^ 52) (show 0 < 2048 by omega)
  have ma := Nat.mod_lt a (show 0 < 2 ^ 52 by omega)
  have mb := Nat.mod_lt b (show 0 < 2 ^ 52 by omega)
  have sa : a / 2 ^ 63 % 2 = 0 ∨ a / 2 ^ 63 % 2 = 1 := by omega
  have sb : b / 2 ^ 63 % 2 = 0 ∨ b / 2 ^ 63 % 2 = 1 := by omega
  have key : a / 2 ^ 52 % 2048 = b / 2 ^ 52 % 2048 → a % 2 ^ 52 = b % 2 ^ 52 → a / 2 ^ 63 % 2 = b / 2 ^ 63 % 2 → a = b := by omega
  unfold dval at h hn h0
  dsimp only at h hn h0
  clear ha hb
  generalize a / 2 ^ 52 % 2048 = e at *
  generalize b / 2 ^ 52 % 2048 = e' at *
  generalize a % 2 ^ 52 = m at *
  generalize b % 2 ^ 52 = m' at *
  generalize a / 2 ^ 63 % 2 = s at *
  generalize b / 2 ^ 63 % 2 = s' at *
  by_cases h1 : e = 2047 <;> by_cases h2 : e' = 2047
  · rw [if_pos h1] at h hn
    rw [if_pos h2] at h
    by_cases m1 : m = 0 <;> by_cases m2 : m' = 0
    · rw [if_pos m1, if_pos m2, D.inf.injEq, decide_eq_decide] at h
      exact key (by omega) (by omega) (by omega)
    · rw [if_pos m1, if_neg m2] at h; cases h
    · rw [if_neg m1] at hn; exact absurd rfl hn
    · rw [if_neg m1] at hn; exact absurd rfl hn
  · rw [if_pos h1, if_neg h2] at h; split at h <;> cases h
  · rw [if_neg h1, if_pos h2] at h
    by_cases m2 : m' = 0
    · rw [if_pos m2] at h; cases h
    · rw [if_neg m2] at h; cases h
  · rw [if_neg h1, if_neg h2, D.fin.injEq] at h
    rw [if_neg h1] at h0
    have hmag : mag e m = mag e' m' ∧ s = s' := by
      have h0' : mag e m ≠ 0 := by
        intro hc; apply h0; rw [hc]; simp
      simp only [decide_eq_true_eq] at h
      split at h <;> split at h <;> omega
    obtain ⟨k1, k2⟩ := mag_inj ma mb hmag.1
    exact key k1 k2 hmag.2

/-- Numbers on which the hash is meant to agree with equality: no precise numbers, integers exact as doubles, doubles that are
not integers. -/
def NumHash : Num → Prop
  | .zero => True
  | .uint n => rnd n = n
  | .int i => rnd i.natAbs = i.natAbs
  | .dbl b => b < 2 ^ 64 ∧ ∀ k : Int, dval b ≠ .fin (k * one)
  | _ => False

/-- No binary strings; items of arrays without keys; only containers have items. -/
def Plain (v : EV) : Prop := ∀ x, Sub x v → (∀ s, x.sh ≠ .str s true) ∧ (x.sh = .arr → ∀ k ∈ x.kids, k.key = []) ∧
  (x.sh ≠ .arr → (∀ d, x.sh ≠ .obj d) → x.kids = [])

theorem Plain.kid {a : Nat} {k : Bytes} {w : Bool} {s : Sh} {l : List EV}
    (h : Plain (.node a k w s l)) : ∀ x ∈ l, Plain x := fun x hx y hy => h y (.item _ x hx hy)

theorem numHash_exact {n : Num} (h : NumHash n) : Exact n := by
  cases n <;> first | exact h | trivial

theorem serInt_nat (env : BinJson.Env) (fl : BinJson.Flags) {i : Int} (h : 0 ≤ i) :
    BinJson.serInt fl env false i = .ok (BinJson.serInteger fl env i.natAbs 0x20) := by
  unfold BinJson.serInt
  rw [if_neg (by omega), if_neg Bool.false_ne_true, if_neg (by omega)]

theorem serShape_num (env : BinJson.Env) (fl : BinJson.Flags) {x y : Num} (hx : NumHash x) (hy : NumHash y)
    (h : deq x.dbl' y.dbl' = true) (c c' : Nat) :
    BinJson.serShape fl env x.shape c = BinJson.serShape fl env y.shape c' := by
  rw [deq_iff] at h
  obtain ⟨h, hn⟩ := h
  -- integers have the integer as their double
  have hint : ∀ n : Num, NumHash n → n.isI = true → n.dbl' = .fin (intOf n * one) := by
    intro n hn hi
    cases n with
    | zero => show D.fin 0 = D.fin (0 * one); rw [Int.zero_mul]
    | uint n => exact dint_exact_nat hn
    | int i => exact dint_exact hn
    | dbl b => simp [Num.isI] at hi
    | precU n => exact hn.elim
    | precI n => exact hn.elim
    | precD n => exact hn.elim
  have hser : ∀ n : Num, NumHash n → n.isI = true → ∀ c, BinJson.serShape fl env n.shape c = BinJson.serInt fl env false (intOf n) := by
    intro n hn hi c
    cases n with
    | zero => rfl
    | uint n =>
      rw [serInt_nat env fl (show 0 ≤ intOf (.uint n) by simp only [intOf]; omega)]
      rfl
    | int i => rfl
    | dbl b => simp [Num.isI] at hi
    | precU n => exact hn.elim
    | precI n => exact hn.elim
    | precD n => exact hn.elim
  have hdbl : ∀ n : Num, NumHash n → n.isI = false → ∃ b, n = .dbl b := by
    intro n hn hi
    cases n <;> first | exact ⟨_, rfl⟩ | exact hn.elim | simp [Num.isI] at hi
  by_cases ix : x.isI = true <;> by_cases iy : y.isI = true
  · rw [hser x hx ix, hser y hy iy]
    rw [hint x hx ix, hint y hy iy, D.fin.injEq] at h
    rw [mul_one_inj.1 h]
  · obtain ⟨b, rfl⟩ := hdbl y hy (by simpa using iy)
    rw [hint x hx ix] at h
    exact absurd h.symm (hy.2 _)
  · obtain ⟨b, rfl⟩ := hdbl x hx (by simpa using ix)
    rw [hint y hy iy] at h
    exact absurd h (hx.2 _)
  · obtain ⟨b, rfl⟩ := hdbl x hx (by simpa using ix)
    obtain ⟨b', rfl⟩ := hdbl y hy (by simpa using iy)
    have h0 : dval b ≠ .fin 0 := by have := hx.2 0; rwa [Int.zero_mul] at this
    rw [dval_inj hx.1 hy.1 h hn h0]
    rfl

theorem toBV_key (a : EV) : toBV a = (toBV a).withKey a.key := by
  obtain ⟨aa, ak, aw, ash, al⟩ := a
  rfl

theorem toBVs_length : ∀ l : List EV, (toBVs l).length = l.length
  | [] => rfl
  | a :: l => by rw [toBVs, List.length_cons, List.length_cons, toBVs_length l]

mutual
theorem ser_equal (H : Nat → EV) (env : BinJson.Env) : ∀ (a b : EV), Lives H a → Lives H b → Numbers (fun n _ => NumHash n) a →
    Numbers (fun n _ => NumHash n) b → Plain a → Plain b → equal a b = true → ∀ (k : Bytes) (ss : BinJson.SS),
    BinJson.ser {} env ss ((toBV a).withKey k) = BinJson.ser {} env ss ((toBV b).withKey k)
  | .node aa ak aw ash al, .node ba bk bw bsh bl, La, Lb, ha, hb, pa, pb, h, k, ss => by
    rw [equal.eq_def] at h
    dsimp only [EV.sh, EV.kids, EV.wrapped] at h
    -- shapes and items are written in the same way
    have key : BinJson.serShape {} env ash.shape (toBVs al).length = BinJson.serShape {} env bsh.shape (toBVs bl).length →
        (∀ ss, BinJson.serL {} env ss (toBVs al) = BinJson.serL {} env ss (toBVs bl)) →
        BinJson.ser {} env ss ((toBV (.node aa ak aw ash al)).withKey k) =
        BinJson.ser {} env ss ((toBV (.node ba bk bw bsh bl)).withKey k) := by
      intro h1 h2
      rw [toBV, toBV, BinJson.BV.withKey, BinJson.BV.withKey, BinJson.ser, BinJson.ser, h1]
      simp only [h2]
    have hk : ash ≠ .arr → (∀ d, ash ≠ .obj d) → bsh ≠ .arr → (∀ d, bsh ≠ .obj d) → al = [] ∧ bl = [] :=
      fun h1 h2 h3 h4 => ⟨(pa _ .self).2.2 h1 h2, (pb _ .self).2.2 h3 h4⟩
    cases ash <;> cases bsh <;> simp only [Bool.false_eq_true] at h
    · obtain ⟨rfl, rfl⟩ := hk (by simp) (by simp) (by simp) (by simp)
      exact key rfl (fun _ => rfl)
    · obtain ⟨rfl, rfl⟩ := hk (by simp) (by simp) (by simp) (by simp)
      rw [beq_iff_eq] at h
      exact key (by rw [h]) (fun _ => rfl)
    · obtain ⟨rfl, rfl⟩ := hk (by simp) (by simp) (by simp) (by simp)
      have n1 : NumHash _ := ha _ .self _ rfl
      have n2 : NumHash _ := hb _ .self _ rfl
      rw [numEq_exact (numHash_exact n1) (numHash_exact n2)] at h
      exact key (serShape_num env {} n1 n2 h _ _) (fun _ => rfl)
    · obtain ⟨rfl, rfl⟩ := hk (by simp) (by simp) (by simp) (by simp)
      rename_i x p y q
      rw [beq_iff_eq] at h
      have hp : p = false := by
        cases p with
        | false => rfl
        | true => exact absurd rfl ((pa _ .self).1 x)
      have hq : q = false := by
        cases q with
        | false => rfl
        | true => exact absurd rfl ((pb _ .self).1 y)
      exact key (by rw [h, hp, hq]) (fun _ => rfl)
    · rw [Bool.and_eq_true, beq_iff_eq] at h
      refine key ?_ (serL_items H env al bl La.kid Lb.kid ha.kid hb.kid pa.kid pb.kid ((pa _ .self).2.1 rfl)
        ((pb _ .self).2.1 rfl) h.1 h.2)
      rw [toBVs_length, toBVs_length, h.1]
    · rw [Bool.and_eq_true, beq_iff_eq] at h
      refine key ?_ (serL_members H env al bl La.kid Lb.kid ha.kid hb.kid pa.kid pb.kid h.1 h.2)
      rw [toBVs_length, toBVs_length, h.1]
      rfl
theorem serL_items (H : Nat → EV) (env : BinJson.Env) : ∀ (l r : List EV), (∀ x ∈ l, Lives H x) → (∀ x ∈ r, Lives H x) →
    (∀ x ∈ l, Numbers (fun n _ => NumHash n) x) → (∀ x ∈ r, Numbers (fun n _ => NumHash n) x) → (∀ x ∈ l, Plain x) →
    (∀ x ∈ r, Plain x) → (∀ x ∈ l, x.key = []) → (∀ x ∈ r, x.key = []) → r.length = l.length → equalItems l r = true →
    ∀ ss, BinJson.serL {} env ss (toBVs l) = BinJson.serL {} env ss (toBVs r)
  | [], [], _, _, _, _, _, _, _, _, _, _, _ => rfl
  | [], _ :: _, _, _, _, _, _, _, _, _, h, _, _ => by simp at h
  | _ :: _, [], _, _, _, _, _, _, _, _, h, _, _ => by simp at h
  | a :: l, b :: r, Ll, Lr, hl, hr, pl, pr, kl, kr, hlen, h, ss => by
    rw [equalItems, Bool.and_eq_true, Bool.or_eq_true] at h
    have ih := serL_items H env l r (fun x hx => Ll x (by simp [hx])) (fun x hx => Lr x (by simp [hx]))
      (fun x hx => hl x (by simp [hx])) (fun x hx => hr x (by simp [hx])) (fun x hx => pl x (by simp [hx]))
      (fun x hx => pr x (by simp [hx])) (fun x hx => kl x (by simp [hx])) (fun x hx => kr x (by simp [hx]))
      (by simpa using hlen) h.2
    have he : BinJson.ser {} env ss (toBV a) = BinJson.ser {} env ss (toBV b) := by
      rcases h.1 with h1 | h1
      · rw [same_of_addr (Ll a (by simp)) (Lr b (by simp)) h1]
      · rw [toBV_key a, toBV_key b, kl a (by simp), kr b (by simp)]
        exact ser_equal H env a b (Ll a (by simp)) (Lr b (by simp)) (hl a (by simp)) (hr b (by simp)) (pl a (by simp))
          (pr b (by simp)) h1 [] ss
    rw [toBVs, toBVs, BinJson.serL, BinJson.serL, he]
    simp only [ih]
theorem serL_members (H : Nat → EV) (env : BinJson.Env) : ∀ (l r : List EV), (∀ x ∈ l, Lives H x) → (∀ x ∈ r, Lives H x) →
    (∀ x ∈ l, Numbers (fun n _ => NumHash n) x) → (∀ x ∈ r, Numbers (fun n _ => NumHash n) x) → (∀ x ∈ l, Plain x) →
    (∀ x ∈ r, Plain x) → r.length = l.length → equalMembers l r = true →
    ∀ ss, BinJson.serL {} env ss (toBVs l) = BinJson.serL {} env ss (toBVs r)
  | [], [], _, _, _, _, _, _, _, _, _ => rfl
  | [], _ :: _, _, _, _, _, _, _, h, _, _ => by simp at h
  | _ :: _, [], _, _, _, _, _, _, h, _, _ => by simp at h
  | a :: l, b :: r, Ll, Lr, hl, hr, pl, pr, hlen, h, ss => by
    rw [equalMembers, Bool.and_eq_true, Bool.or_eq_true] at h
    have ih := serL_members H env l r (fun x hx => Ll x (by simp [hx])) (fun x hx => Lr x (by simp [hx]))
      (fun x hx => hl x (by simp [hx])) (fun x hx => hr x (by simp [hx])) (fun x hx => pl x (by simp [hx]))
      (fun x hx => pr x (by simp [hx])) (by simpa using hlen) h.2
    have he : BinJson.ser {} env ss (toBV a) = BinJson.ser {} env ss (toBV b) := by
      rcases h.1 with h1 | h1
      · rw [same_of_addr (Ll a (by simp)) (Lr b (by simp)) h1]
      · rw [Bool.and_eq_true, beq_iff_eq] at h1
        rw [toBV_key a, toBV_key b, h1.1]
        exact ser_equal H env a b (Ll a (by simp)) (Lr b (by simp)) (hl a (by simp)) (hr b (by simp)) (pl a (by simp))
          (pr b (by simp)) h1.2 _ ss
    rw [toBVs, toBVs, BinJson.serL, BinJson.serL, he]
    simp only [ih]
end

/-- **C22 (partial).** Equal values have the same hash (the same undefined behaviour for the most negative integer included)
when they have no precise numbers, no doubles with an integer value, no integers inexact as doubles, no binary strings and no keys on array items.
Wanted for all equal values; the violations below show why each of these is excluded. -/
theorem C22_hash_partial (H : Nat → EV) (env : BinJson.Env) (a b : EV) (La : Lives H a) (Lb : Lives H b)
    (ha : Numbers (fun n _ => NumHash n) a) (hb : Numbers (fun n _ => NumHash n) b) (pa : Plain a) (pb : Plain b)
    (h : opEq a b = true) : Eq.hash env a = Eq.hash env b := by
  unfold Eq.hash
  rw [opEq, Bool.or_eq_true] at h
  rcases h with h | h
  · rw [same_of_addr Lb La h]
  · rw [ser_equal H env b a Lb La hb ha pb pa h]

/-- Environment of the examples: only 64-bit integers above 2^32 in the compatible mode would use the conversion. -/
def envEx : BinJson.Env := { f64 := fun _ => 0 }

/-- **C22, simple values**: the hash is the FNV-1a hash of the one byte the binary format has for the value; the key, the address and
the kind of the object do not matter. -/
theorem C22_simple (env : BinJson.Env) (a : Nat) (k : Bytes) (w : Bool) :
    Eq.hash env (.node a k w .null []) = .ok (fnv [1]) ∧ Eq.hash env (.node a k w .undef []) = .ok (fnv [2]) ∧
    Eq.hash env (.node a k w (.bool true) []) = .ok (fnv [3]) ∧ Eq.hash env (.node a k w (.bool false) []) = .ok (fnv [4]) :=
  ⟨rfl, rfl, rfl, rfl⟩

/-- Published test vectors of FNV-1a with 64 bits: the empty text, `a`, `foobar`. -/
example : fnv [] = 0xcbf29ce484222325 ∧ fnv (ascii "a") = 0xaf63dc4c8601ec8c ∧ fnv (ascii "foobar") = 0x85944171f73967e8 := by decide +kernel

/-- **C22, violation.** `1` and `1.0` are equal, their hashes differ. -/
theorem C22_violation_double : opEq (leaf 1 (.num (.uint 1))) (leaf 2 (.num (.dbl 0x3FF0000000000000))) = true ∧
    Eq.hash envEx (leaf 1 (.num (.uint 1))) ≠ Eq.hash envEx (leaf 2 (.num (.dbl 0x3FF0000000000000))) := by decide +kernel

/-- **C22, violation.** The precise number `1` equals `1`, the hashes differ. -/
theorem C22_violation_precise : opEq (leaf 1 (.num (.uint 1))) (leaf 2 (.num (.precU 1))) = true ∧
    Eq.hash envEx (leaf 1 (.num (.uint 1))) ≠ Eq.hash envEx (leaf 2 (.num (.precU 1))) := by decide +kernel

/-- **C22, violation.** A string equals the binary string with the same bytes, the hashes differ. -/
theorem C22_violation_binary : opEq (leaf 1 (.str [97] false)) (leaf 2 (.str [97] true)) = true ∧
    Eq.hash envEx (leaf 1 (.str [97] false)) ≠ Eq.hash envEx (leaf 2 (.str [97] true)) := by decide +kernel

/-- **C22, violation.** Keys bound to items of an array are ignored by equality but not by the hash. -/
theorem C22_violation_item_keys :
    opEq (.node 1 [] false .arr [.node 2 [97] false .null []]) (.node 3 [] false .arr [.node 4 [] false .null []]) = true ∧
    Eq.hash envEx (.node 1 [] false .arr [.node 2 [97] false .null []]) ≠
      Eq.hash envEx (.node 3 [] false .arr [.node 4 [] false .null []]) := by decide +kernel

/-- **C22, violation.** Integers which round to the same double: signed 2^53 and unsigned 2^53+1. -/
theorem C22_violation_rounding : opEq (leaf 1 (.num (.int (2 ^ 53)))) (leaf 2 (.num (.uint (2 ^ 53 + 1)))) = true ∧
    Eq.hash envEx (leaf 1 (.num (.int (2 ^ 53)))) ≠ Eq.hash envEx (leaf 2 (.num (.uint (2 ^ 53 + 1)))) := by decide +kernel

/-- **C22, violation.** The hash of the most negative integer is undefined behaviour (its negation overflows). -/
theorem C22_violation_overflow : Eq.hash envEx (leaf 1 (.num (.int (-2 ^ 63)))) = .ub := by decide +kernel

/-! ### The hypotheses can be met -/

/-- `{"a":[1,-2,"x",0.5]}` twice, with an item shared. -/
def exA : EV := .node 1 [] false (.obj false) [.node 2 [97] false .arr
  [leaf 3 (.num (.uint 1)), leaf 4 (.num (.int (-2))), leaf 5 (.str [120] false), leaf 6 (.num (.dbl 0x3FE0000000000000))]]
def exB : EV := .node 11 [] false (.obj false) [.node 12 [97] false .arr
  [leaf 13 (.num (.int 1)), leaf 14 (.num (.int (-2))), leaf 5 (.str [120] false), leaf 16 (.num (.dbl 0x3FE0000000000000))]]

/-- Subvalues of a leaf. -/
theorem sub_leaf {x : EV} {a : Nat} {s : Sh} (h : Sub x (leaf a s)) : x = leaf a s := by
  cases h with
  | self => rfl
  | item _ k hk _ => simp [leaf, EV.kids] at hk

theorem sub_node {x : EV} {a : Nat} {k : Bytes} {w : Bool} {s : Sh} {l : List EV} (h : Sub x (.node a k w s l)) :
    x = .node a k w s l ∨ ∃ y ∈ l, Sub x y := by
  cases h with
  | self => exact Or.inl rfl
  | item _ y hk h' => exact Or.inr ⟨y, hk, h'⟩

theorem sub_exA {x : EV} (h : Sub x exA) : x = exA ∨ x ∈ exA.kids ∨ ∃ y ∈ exA.kids, x ∈ y.kids := by
  rcases sub_node h with h | ⟨y, hy, h⟩
  · exact Or.inl h
  · simp only [List.mem_singleton] at hy
    subst hy
    rcases sub_node h with h | ⟨z, hz, h⟩
    · right; left; rw [h]; simp [exA, EV.kids]
    · right; right
      refine ⟨_, List.mem_singleton.2 rfl, ?_⟩
      · simp only [List.mem_cons, List.not_mem_nil, or_false] at hz
        rcases hz with rfl | rfl | rfl | rfl <;> (rw [sub_leaf h]; simp [EV.kids])

example : Numbers (fun n _ => Nice n) exA ∧ Numbers (fun n _ => Exact n) exA ∧ NoUndef exA ∧ Plain exA := by
  have r1 : rnd 1 = 1 := by decide +kernel
  have r2 : rnd (-2 : Int).natAbs = (-2 : Int).natAbs := by decide +kernel
  have d : dval 0x3FE0000000000000 ≠ .nan := by decide +kernel
  have hN : Numbers (fun n _ => Nice n) exA := by
    intro x hx n hn
    rcases sub_exA hx with rfl | hx | ⟨y, hy, hx⟩
    · simp [exA, EV.sh] at hn
    · simp only [exA, EV.kids, List.mem_singleton] at hx
      subst hx; simp [EV.sh] at hn
    · simp only [exA, EV.kids, List.mem_singleton] at hy
      subst hy
      simp only [EV.kids, List.mem_cons, List.not_mem_nil, or_false] at hx
      rcases hx with rfl | rfl | rfl | rfl <;> simp only [leaf, EV.sh, Sh.num.injEq, reduceCtorEq] at hn <;> subst hn
      · exact ⟨r1, by omega⟩
      · exact r2
      · exact d
  refine ⟨hN, fun x hx n hn => nice_exact (hN x hx n hn), ?_, ?_⟩
  · intro x hx
    rcases sub_exA hx with rfl | hx | ⟨y, hy, hx⟩
    · simp [exA, EV.sh]
    · simp only [exA, EV.kids, List.mem_singleton] at hx
      subst hx; simp [EV.sh]
    · simp only [exA, EV.kids, List.mem_singleton] at hy
      subst hy
      simp only [EV.kids, List.mem_cons, List.not_mem_nil, or_false] at hx
      rcases hx with rfl | rfl | rfl | rfl <;> simp [leaf, EV.sh]
  · intro x hx
    rcases sub_exA hx with rfl | hx | ⟨y, hy, hx⟩
    · simp [exA, EV.sh]
    · simp only [exA, EV.kids, List.mem_singleton] at hx
      subst hx; simp [EV.sh, EV.kids, leaf, EV.key]
    · simp only [exA, EV.kids, List.mem_singleton] at hy
      subst hy
      simp only [EV.kids, List.mem_cons, List.not_mem_nil, or_false] at hx
      rcases hx with rfl | rfl | rfl | rfl <;> simp [leaf, EV.sh, EV.kids]

/-- Not an integer as a double. -/
def fracB : D → Bool
  | .fin x => x % (one : Int) != 0
  | _ => true

example : NumHash (.uint 1) ∧ NumHash (.int (-2)) ∧ NumHash (.dbl 0x3FE0000000000000) := by
  refine ⟨(by decide +kernel : rnd 1 = 1), (by decide +kernel : rnd (-2 : Int).natAbs = (-2 : Int).natAbs), by omega, ?_⟩
  intro k hk
  have h : fracB (dval 0x3FE0000000000000) = true := by decide +kernel
  rw [hk] at h
  have e : fracB (.fin (k * (one : Int))) = (k * (one : Int) % (one : Int) != 0) := rfl
  rw [e, Int.mul_emod_left] at h
  exact absurd h (by decide)

/-- The memory of the two values. -/
def exH (n : Nat) : EV :=
  if n = 1 then exA else if n = 11 then exB
  else ((exA.kids ++ exA.kids.flatMap EV.kids ++ exB.kids ++ exB.kids.flatMap EV.kids).find? (fun v => v.addr == n)).getD exA

/-- All subvalues as a list. -/
def subs3 (v : EV) : List EV := v :: (v.kids ++ v.kids.flatMap EV.kids)

theorem sub_subs3 (v : EV) (hd : ∀ y ∈ v.kids.flatMap EV.kids, y.kids = []) {x : EV} (h : Sub x v) : x ∈ subs3 v := by
  cases h with
  | self => exact List.mem_cons_self
  | item _ k hk h =>
    cases h with
    | self => exact List.mem_cons_of_mem _ (List.mem_append_left _ hk)
    | item _ k' hk' h =>
      have hm : k' ∈ v.kids.flatMap EV.kids := List.mem_flatMap.2 ⟨k, hk, hk'⟩
      cases h with
      | self => exact List.mem_cons_of_mem _ (List.mem_append_right _ hm)
      | item _ k'' hk'' _ => rw [hd _ hm] at hk''; cases hk''

example : Lives exH exA ∧ Lives exH exB := by
  constructor
  · intro x hx
    have := sub_subs3 exA (by simp [exA, EV.kids, leaf]) hx
    simp only [subs3, exA, EV.kids, List.flatMap_cons, List.flatMap_nil, List.append_nil, List.cons_append, List.nil_append,
      List.mem_cons, List.not_mem_nil, or_false] at this
    rcases this with rfl | rfl | rfl | rfl | rfl | rfl <;> rfl
  · intro x hx
    have := sub_subs3 exB (by simp [exB, EV.kids, leaf]) hx
    simp only [subs3, exB, EV.kids, List.flatMap_cons, List.flatMap_nil, List.append_nil, List.cons_append, List.nil_append,
      List.mem_cons, List.not_mem_nil, or_false] at this
    rcases this with rfl | rfl | rfl | rfl | rfl | rfl <;> rfl

example : opEq exA exB = true ∧ Eq.compare exA exB = 0 ∧ Eq.hash envEx exA = Eq.hash envEx exB := by decide +kernel

end Imt.Props
