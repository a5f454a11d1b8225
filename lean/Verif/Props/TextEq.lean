import Verif.Props.Equal
import Verif.Lemmas.Trip
import Verif.Props.Serializer
import Verif.Props.WriteDouble
/-!
# Equality of values and of their texts (C171)

Equality is `Value::operator==` (Model/Equal.lean), texts are those of `Value::stringify` (Model/Serializer.lean).
-/
namespace Imt.Props
open Imt Imt.Eq Imt.Spec

/-- What the text serializer makes of the things it does not print itself in the model: decimal digits of finite doubles
(serializer.h:278-364), texts of precise numbers (serializer.h:143-146), encoded binary strings (serializer.h:168-172). -/
structure Texts where
  dec : Nat → Decimal
  prec : Num → Bytes
  enc : Bytes → Bytes

/-- A number for the text serializer (serializer.h:143-162). Not a number is neither finite nor negative, so it is written as
the positive infinity (serializer.h:272-276). -/
def numText (T : Texts) : Num → JNum
  | .zero => .uint 0
  | .uint n => .uint n
  | .int i => .int i
  | .dbl b =>
    match dval b with
    | .fin _ => .dbl (T.dec b)
    | .inf neg => .inf neg
    | .nan => .inf false
  | .precU n => .prec (T.prec (.precU n)) (.unat n)
  | .precI i => .prec (T.prec (.precI i)) (.sint i)
  | .precD b => .prec (T.prec (.precD b)) .dbl

mutual
/-- A value as the text serializer sees it (serializer.h:90-141): addresses, wrappers and keys of items are not written. -/
def toText (T : Texts) : EV → JV
  | .node _ _ _ sh kids =>
    match sh with
    | .undef => .undef
    | .null => .null
    | .bool b => .bool b
    | .num n => .num (numText T n)
    | .str s false => .str s
    | .str s true => .str (T.enc s)
    | .arr => .arr (toTextL T kids)
    | .obj _ => .obj (toTextM T kids)
/-- Items. -/
def toTextL (T : Texts) : List EV → List JV
  | [] => []
  | v :: l => toText T v :: toTextL T l
/-- Members. -/
def toTextM (T : Texts) : List EV → List (Bytes × JV)
  | [] => []
  | v :: l => (v.key, toText T v) :: toTextM T l
end

/-- Signed numbers which are not negative as unsigned ones. -/
def normNum : JNum → JNum
  | .int i => if 0 ≤ i then .uint i.toNat else .int i
  | n => n

mutual
/-- The same in a whole value. -/
def normV : JV → JV
  | .num n => .num (normNum n)
  | .arr l => .arr (normL l)
  | .obj l => .obj (normM l)
  | v => v
/-- Items. -/
def normL : List JV → List JV
  | [] => []
  | v :: l => normV v :: normL l
/-- Members. -/
def normM : List (Bytes × JV) → List (Bytes × JV)
  | [] => []
  | (k, v) :: l => (k, normV v) :: normM l
end

theorem writeNum_norm (u : Bool) (f : Decimal → Bytes) (n : JNum) : Ser.writeNum u f (normNum n) = Ser.writeNum u f n := by
  cases n with
  | int i =>
    rw [normNum]
    split
    · rw [Ser.writeNum, Ser.writeNum, Ser.writeSigned, if_neg (by omega), show i.natAbs = i.toNat by omega]
    · rfl
  | _ => rfl

mutual
theorem ser_norm (u : Bool) (f : Decimal → Bytes) : ∀ v : JV, Ser.ser u f (normV v) = Ser.ser u f v
  | .undef => rfl
  | .null => rfl
  | .bool _ => rfl
  | .str _ => rfl
  | .num n => by rw [normV, Ser.ser, Ser.ser, writeNum_norm]
  | .arr l => by rw [normV, Ser.ser, Ser.ser, serItems_norm u f l]
  | .obj l => by rw [normV, Ser.ser, Ser.ser, serMembers_norm u f l]
theorem serItems_norm (u : Bool) (f : Decimal → Bytes) : ∀ l : List JV, Ser.serItems u f (normL l) = Ser.serItems u f l
  | [] => rfl
  | [v] => by rw [normL, normL, Ser.serItems, Ser.serItems, ser_norm u f v]
  | v :: w :: r => by
    have := serItems_norm u f (w :: r)
    rw [normL] at this ⊢
    rw [normL, Ser.serItems, Ser.serItems, ser_norm u f v, this]
theorem serMembers_norm (u : Bool) (f : Decimal → Bytes) : ∀ l : List (Bytes × JV), Ser.serMembers u f (normM l) = Ser.serMembers u f l
  | [] => rfl
  | [(k, v)] => by rw [normM, normM, Ser.serMembers, Ser.serMembers, ser_norm u f v]
  | (k, v) :: (k', w) :: r => by
    have := serMembers_norm u f ((k', w) :: r)
    rw [normM] at this ⊢
    rw [normM, Ser.serMembers, Ser.serMembers, ser_norm u f v, this]
end

mutual
theorem hasMin_norm : ∀ v : JV, Ser.hasMin (normV v) = Ser.hasMin v
  | .undef => rfl
  | .null => rfl
  | .bool _ => rfl
  | .str _ => rfl
  | .num (.uint _) => rfl
  | .num (.dbl _) => rfl
  | .num (.inf _) => rfl
  | .num (.prec _ _) => rfl
  | .num (.int i) => by
    rw [normV, normNum]
    split
    · rw [Ser.hasMin.eq_def, Ser.hasMin]
      dsimp only
      rw [eq_comm, beq_eq_false_iff_ne]
      omega
    · rfl
  | .arr l => by rw [normV, Ser.hasMin, Ser.hasMin, hasMinL_norm l]
  | .obj l => by rw [normV, Ser.hasMin, Ser.hasMin, hasMinM_norm l]
theorem hasMinL_norm : ∀ l : List JV, Ser.hasMinL (normL l) = Ser.hasMinL l
  | [] => rfl
  | v :: l => by rw [normL, Ser.hasMinL, Ser.hasMinL, hasMin_norm v, hasMinL_norm l]
theorem hasMinM_norm : ∀ l : List (Bytes × JV), Ser.hasMinM (normM l) = Ser.hasMinM l
  | [] => rfl
  | (k, v) :: l => by rw [normM, Ser.hasMinM, Ser.hasMinM, hasMin_norm v, hasMinM_norm l]
end

theorem stringify_norm (u : Bool) (f : Decimal → Bytes) (v : JV) : Ser.stringify u f (normV v) = Ser.stringify u f v := by
  unfold Ser.stringify
  rw [hasMin_norm, ser_norm]

/-! ### Equal values -/

/-- No binary strings inside. -/
def NoBin (v : EV) : Prop := ∀ x, Sub x v → ∀ s, x.sh ≠ .str s true

theorem NoBin.kid {a : Nat} {k : Bytes} {w : Bool} {s : Sh} {l : List EV}
    (h : NoBin (.node a k w s l)) : ∀ x ∈ l, NoBin x := fun x hx y hy => h y (.item _ x hx hy)

theorem numText_int (T : Texts) {n : Num} (hn : NumHash n) (hi : n.isI = true) :
    n.dbl' = .fin (intOf n * one) ∧ normNum (numText T n) = normNum (.int (intOf n)) := by
  cases n with
  | zero => exact ⟨by rw [Num.dbl', intOf, Int.zero_mul], rfl⟩
  | uint n =>
    refine ⟨dint_exact_nat hn, ?_⟩
    rw [numText, intOf, normNum, normNum, if_pos (by omega), Int.toNat_natCast]
    intro i h; cases h
  | int i => exact ⟨dint_exact hn, rfl⟩
  | dbl b => simp [Num.isI] at hi
  | precU n => exact hn.elim
  | precI n => exact hn.elim
  | precD n => exact hn.elim

theorem numText_equal (T : Texts) {x y : Num} (hx : NumHash x) (hy : NumHash y) (h : deq x.dbl' y.dbl' = true) :
    normNum (numText T x) = normNum (numText T y) := by
  rw [deq_iff] at h
  obtain ⟨h, hn⟩ := h
  have hdbl : ∀ n : Num, NumHash n → n.isI = false → ∃ b, n = .dbl b := by
    intro n hn hi
    cases n <;> first | exact ⟨_, rfl⟩ | exact hn.elim | simp [Num.isI] at hi
  by_cases ix : x.isI = true <;> by_cases iy : y.isI = true
  · obtain ⟨a1, a2⟩ := numText_int T hx ix
    obtain ⟨b1, b2⟩ := numText_int T hy iy
    rw [a1, b1, D.fin.injEq] at h
    rw [a2, b2, mul_one_inj.1 h]
  · obtain ⟨b, rfl⟩ := hdbl y hy (by simpa using iy)
    rw [(numText_int T hx ix).1] at h
    exact absurd h.symm (hy.2 _)
  · obtain ⟨b, rfl⟩ := hdbl x hx (by simpa using ix)
    rw [(numText_int T hy iy).1] at h
    exact absurd h (hx.2 _)
  · obtain ⟨b, rfl⟩ := hdbl x hx (by simpa using ix)
    obtain ⟨b', rfl⟩ := hdbl y hy (by simpa using iy)
    have h0 : dval b ≠ .fin 0 := by have := hx.2 0; rwa [Int.zero_mul] at this
    rw [dval_inj hx.1 hy.1 h hn h0]

mutual
theorem norm_equal (T : Texts) (H : Nat → EV) : ∀ (a b : EV), Lives H a → Lives H b → Numbers (fun n _ => NumHash n) a →
    Numbers (fun n _ => NumHash n) b → NoBin a → NoBin b → equal a b = true → normV (toText T a) = normV (toText T b)
  | .node aa ak aw ash al, .node ba bk bw bsh bl, La, Lb, ha, hb, pa, pb, h => by
    rw [equal.eq_def] at h
    dsimp only [EV.sh, EV.kids, EV.wrapped] at h
    rw [toText.eq_def T (.node aa ak aw ash al), toText.eq_def T (.node ba bk bw bsh bl)]
    cases ash <;> cases bsh <;> simp only [Bool.false_eq_true] at h
    · rfl
    · rw [beq_iff_eq] at h
      rw [h]
    · have n1 : NumHash _ := ha _ .self _ rfl
      have n2 : NumHash _ := hb _ .self _ rfl
      rw [numEq_exact (numHash_exact n1) (numHash_exact n2)] at h
      dsimp only
      rw [normV, normV, numText_equal T n1 n2 h]
    · rename_i x p y q
      rw [beq_iff_eq] at h
      cases p with
      | true => exact absurd rfl (pa _ .self x)
      | false =>
        cases q with
        | true => exact absurd rfl (pb _ .self y)
        | false => rw [h]
    · rw [Bool.and_eq_true, beq_iff_eq] at h
      dsimp only
      rw [normV, normV, norm_items T H al bl La.kid Lb.kid ha.kid hb.kid pa.kid pb.kid h.1 h.2]
    · rw [Bool.and_eq_true, beq_iff_eq] at h
      dsimp only
      rw [normV, normV, norm_members T H al bl La.kid Lb.kid ha.kid hb.kid pa.kid pb.kid h.1 h.2]
theorem norm_items (T : Texts) (H : Nat → EV) : ∀ (l r : List EV), (∀ x ∈ l, Lives H x) → (∀ x ∈ r, Lives H x) →
    (∀ x ∈ l, Numbers (fun n _ => NumHash n) x) → (∀ x ∈ r, Numbers (fun n _ => NumHash n) x) → (∀ x ∈ l, NoBin x) →
    (∀ x ∈ r, NoBin x) → r.length = l.length → equalItems l r = true → normL (toTextL T l) = normL (toTextL T r)
  | [], [], _, _, _, _, _, _, _, _ => rfl
  | [], _ :: _, _, _, _, _, _, _, h, _ => by simp at h
  | _ :: _, [], _, _, _, _, _, _, h, _ => by simp at h
  | a :: l, b :: r, Ll, Lr, hl, hr, pl, pr, hlen, h => by
    rw [equalItems, Bool.and_eq_true, Bool.or_eq_true] at h
    have ih := norm_items T H l r (fun x hx => Ll x (by simp [hx])) (fun x hx => Lr x (by simp [hx]))
      (fun x hx => hl x (by simp [hx])) (fun x hx => hr x (by simp [hx])) (fun x hx => pl x (by simp [hx]))
      (fun x hx => pr x (by simp [hx])) (by simpa using hlen) h.2
    have he : normV (toText T a) = normV (toText T b) := by
      rcases h.1 with h1 | h1
      · rw [same_of_addr (Ll a (by simp)) (Lr b (by simp)) h1]
      · exact norm_equal T H a b (Ll a (by simp)) (Lr b (by simp)) (hl a (by simp)) (hr b (by simp)) (pl a (by simp))
          (pr b (by simp)) h1
    rw [toTextL, toTextL, normL, normL, he, ih]
theorem norm_members (T : Texts) (H : Nat → EV) : ∀ (l r : List EV), (∀ x ∈ l, Lives H x) → (∀ x ∈ r, Lives H x) →
    (∀ x ∈ l, Numbers (fun n _ => NumHash n) x) → (∀ x ∈ r, Numbers (fun n _ => NumHash n) x) → (∀ x ∈ l, NoBin x) →
    (∀ x ∈ r, NoBin x) → r.length = l.length → equalMembers l r = true → normM (toTextM T l) = normM (toTextM T r)
  | [], [], _, _, _, _, _, _, _, _ => rfl
  | [], _ :: _, _, _, _, _, _, _, h, _ => by simp at h
  | _ :: _, [], _, _, _, _, _, _, h, _ => by simp at h
  | a :: l, b :: r, Ll, Lr, hl, hr, pl, pr, hlen, h => by
    rw [equalMembers, Bool.and_eq_true, Bool.or_eq_true] at h
    have ih := norm_members T H l r (fun x hx => Ll x (by simp [hx])) (fun x hx => Lr x (by simp [hx]))
      (fun x hx => hl x (by simp [hx])) (fun x hx => hr x (by simp [hx])) (fun x hx => pl x (by simp [hx]))
      (fun x hx => pr x (by simp [hx])) (by simpa using hlen) h.2
    have he : a.key = b.key ∧ normV (toText T a) = normV (toText T b) := by
      rcases h.1 with h1 | h1
      · rw [same_of_addr (Ll a (by simp)) (Lr b (by simp)) h1]
        exact ⟨rfl, rfl⟩
      · rw [Bool.and_eq_true, beq_iff_eq] at h1
        exact ⟨h1.1, norm_equal T H a b (Ll a (by simp)) (Lr b (by simp)) (hl a (by simp)) (hr b (by simp)) (pl a (by simp))
          (pr b (by simp)) h1.2⟩
    rw [toTextM, toTextM, normM, normM, he.1, he.2, ih]
end

/-- **C171, equal values (partial).** Values which are equal have the same text (and the same undefined behaviour when there is
the most negative integer), for both outputs, when they have no precise numbers, no doubles with an integer value, no integers
inexact as doubles and no binary strings. Wanted for all equal values; the violations below show why these are excluded. -/
theorem C171_equal_partial (T : Texts) (H : Nat → EV) (u : Bool) (f : Decimal → Bytes) (a b : EV) (La : Lives H a) (Lb : Lives H b)
    (ha : Numbers (fun n _ => NumHash n) a) (hb : Numbers (fun n _ => NumHash n) b) (pa : NoBin a) (pb : NoBin b)
    (h : opEq a b = true) : Ser.stringify u f (toText T a) = Ser.stringify u f (toText T b) := by
  rw [opEq, Bool.or_eq_true] at h
  rcases h with h | h
  · rw [same_of_addr Lb La h]
  · rw [← stringify_norm u f (toText T a), ← stringify_norm u f (toText T b), norm_equal T H b a Lb La hb ha pb pa h]

/-! ### Equal texts -/

/-- Numbers whose text tells them: integers and infinities. -/
def NumTold : Num → Prop
  | .zero | .uint _ | .int _ => True
  | .dbl b => ∃ s, dval b = .inf s
  | _ => False

mutual
/-- Nothing undefined, no precise numbers. -/
def CleanV : JV → Prop
  | .undef => False
  | .num (.prec _ _) => False
  | .arr l => CleanL l
  | .obj l => CleanM l
  | _ => True
/-- Items. -/
def CleanL : List JV → Prop
  | [] => True
  | v :: l => CleanV v ∧ CleanL l
/-- Members. -/
def CleanM : List (Bytes × JV) → Prop
  | [] => True
  | (_, v) :: l => CleanV v ∧ CleanM l
end

mutual
theorem reads_norm (cfg : Parser.Cfg) (hp : cfg.precise = false) : {v w : JV} → Reads cfg v w → CleanV v → w = normV v
  | _, _, .undef, h => by simp [CleanV] at h
  | _, _, .null, _ => rfl
  | _, _, .bool, _ => rfl
  | _, _, .uint _, _ => rfl
  | _, _, .nat (n := n) _, _ => by rw [normV, normNum, if_pos (by omega), Int.toNat_natCast]
  | _, _, .neg _ hi, _ => by rw [normV, normNum, if_neg (by omega)]
  | _, _, .uintP h _ _, _ => by rw [hp] at h; cases h
  | _, _, .natP h _ _, _ => by rw [hp] at h; cases h
  | _, _, .negP h _ _ _, _ => by rw [hp] at h; cases h
  | _, _, .inf, _ => rfl
  | _, _, .prec _ _ _, h => by simp [CleanV] at h
  | _, _, .precP h, _ => by rw [hp] at h; cases h
  | _, _, .str, _ => rfl
  | _, _, .arr hl, h => by rw [CleanV] at h; rw [reads_normL cfg hp hl h, normV]
  | _, _, .obj hl, h => by rw [CleanV] at h; rw [reads_normM cfg hp hl h, normV]
theorem reads_normL (cfg : Parser.Cfg) (hp : cfg.precise = false) : {v w : List JV} → ReadsL cfg v w → CleanL v → w = normL v
  | _, _, .nil, _ => rfl
  | _, _, .cons hv hl, h => by
    rw [CleanL] at h
    rw [reads_norm cfg hp hv h.1, reads_normL cfg hp hl h.2, normL]
theorem reads_normM (cfg : Parser.Cfg) (hp : cfg.precise = false) : {v w : List (Bytes × JV)} → ReadsM cfg v w → CleanM v → w = normM v
  | _, _, .nil, _ => rfl
  | _, _, .cons hv hl, h => by
    rw [CleanM] at h
    rw [reads_norm cfg hp hv h.1, reads_normM cfg hp hl h.2, normM]
end

theorem told_clean (T : Texts) {n : Num} (h : NumTold n) : CleanV (.num (numText T n)) := by
  cases n with
  | dbl b =>
    obtain ⟨s, hs⟩ := h
    rw [numText, hs]
    rw [CleanV] <;> simp
  | precU _ => exact h.elim
  | precI _ => exact h.elim
  | precD _ => exact h.elim
  | _ => rw [numText, CleanV] <;> simp

mutual
theorem clean_toText (T : Texts) : ∀ a : EV, NoUndef a → Numbers (fun n _ => NumTold n) a → CleanV (toText T a)
  | .node _ _ _ .undef _, hu, _ => absurd rfl (hu _ .self)
  | .node _ _ _ .null _, _, _ => by rw [toText, CleanV] <;> simp
  | .node _ _ _ (.bool _) _, _, _ => by rw [toText, CleanV] <;> simp
  | .node _ _ _ (.num n) _, _, hn => by
    rw [toText]
    exact told_clean T (hn _ .self n rfl)
  | .node _ _ _ (.str _ false) _, _, _ => by rw [toText, CleanV] <;> simp
  | .node _ _ _ (.str _ true) _, _, _ => by rw [toText, CleanV] <;> simp
  | .node _ _ _ .arr al, hu, hn => by rw [toText, CleanV]; exact clean_toTextL T al hu.kid hn.kid
  | .node _ _ _ (.obj _) al, hu, hn => by rw [toText, CleanV]; exact clean_toTextM T al hu.kid hn.kid
theorem clean_toTextL (T : Texts) : ∀ l : List EV, (∀ x ∈ l, NoUndef x) → (∀ x ∈ l, Numbers (fun n _ => NumTold n) x) →
    CleanL (toTextL T l)
  | [], _, _ => by rw [toTextL, CleanL]; trivial
  | a :: l, hu, hn => by
    rw [toTextL, CleanL]
    exact ⟨clean_toText T a (hu a (by simp)) (hn a (by simp)), clean_toTextL T l (fun x hx => hu x (by simp [hx]))
      (fun x hx => hn x (by simp [hx]))⟩
theorem clean_toTextM (T : Texts) : ∀ l : List EV, (∀ x ∈ l, NoUndef x) → (∀ x ∈ l, Numbers (fun n _ => NumTold n) x) →
    CleanM (toTextM T l)
  | [], _, _ => by rw [toTextM, CleanM]; trivial
  | a :: l, hu, hn => by
    rw [toTextM, CleanM]
    exact ⟨clean_toText T a (hu a (by simp)) (hn a (by simp)), clean_toTextM T l (fun x hx => hu x (by simp [hx]))
      (fun x hx => hn x (by simp [hx]))⟩
end

theorem dint_ne_nan (i : Int) : dint i ≠ .nan := by unfold dint; simp

theorem dint_zero : dint 0 = .fin 0 := by
  have := dint_exact_nat (n := 0) (by decide +kernel)
  rw [Int.natCast_zero, Int.zero_mul] at this
  exact this

/-- The double of a number whose text tells it, by its text. -/
theorem told_dbl (T : Texts) {x : Num} (hx : NumTold x) : (∃ s, x.dbl' = .inf s ∧ numText T x = .inf s ∧ x.isI = false) ∨
    (x.isI = true ∧ x.dbl' = dint (intOf x) ∧ normNum (numText T x) = normNum (.int (intOf x))) := by
  cases x with
  | zero => exact Or.inr ⟨rfl, dint_zero.symm, rfl⟩
  | uint n =>
    refine Or.inr ⟨rfl, rfl, ?_⟩
    rw [numText, intOf, normNum, normNum, if_pos (by omega), Int.toNat_natCast]
    intro i h; cases h
  | int i => exact Or.inr ⟨rfl, rfl, rfl⟩
  | dbl b =>
    obtain ⟨s, hs⟩ := hx
    exact Or.inl ⟨s, hs, by rw [numText, hs], rfl⟩
  | precU n => exact hx.elim
  | precI n => exact hx.elim
  | precD n => exact hx.elim

theorem normNum_int_inj {i j : Int} (h : normNum (.int i) = normNum (.int j)) : i = j := by
  rw [normNum, normNum] at h
  split at h <;> split at h <;> simp only [JNum.uint.injEq, JNum.int.injEq, reduceCtorEq] at h <;> omega

theorem normNum_int_inf {i : Int} {s : Bool} : normNum (.int i) ≠ .inf s := by
  rw [normNum]; split <;> simp

theorem numEq_norm (T : Texts) {x y : Num} (hx : NumTold x) (hy : NumTold y) (w : Bool)
    (h : normNum (numText T x) = normNum (numText T y)) : numEq x y w = true := by
  have hd : deq x.dbl' y.dbl' = true ∧ (x.isI = true → y.isI = true → intOf x = intOf y) := by
    rcases told_dbl T hx with ⟨s, a1, a2, a3⟩ | ⟨a1, a2, a3⟩ <;> rcases told_dbl T hy with ⟨s', b1, b2, b3⟩ | ⟨b1, b2, b3⟩
    · rw [a2, b2] at h
      simp only [normNum, JNum.inf.injEq] at h
      rw [a1, b1, h]
      exact ⟨by simp [deq], by rw [a3]; simp⟩
    · rw [a2, b3] at h
      exact absurd h.symm normNum_int_inf
    · rw [a3, b2] at h
      exact absurd h normNum_int_inf
    · rw [a3, b3] at h
      have := normNum_int_inj h
      rw [a2, b2, this, deq_iff]
      exact ⟨⟨rfl, dint_ne_nan _⟩, fun _ _ => rfl⟩
  unfold numEq
  cases x <;> cases y <;> try exact hd.1
  · have := hd.2 rfl rfl
    simp only [intOf] at this
    dsimp only
    split
    · exact hd.1
    · rw [beq_iff_eq]; omega
  · have := hd.2 rfl rfl
    simp only [intOf] at this
    dsimp only
    split
    · exact hd.1
    · rw [beq_iff_eq]; exact this

theorem toTextL_length (T : Texts) : ∀ l : List EV, (normL (toTextL T l)).length = l.length
  | [] => rfl
  | a :: l => by rw [toTextL, normL, List.length_cons, List.length_cons, toTextL_length T l]

theorem toTextM_length (T : Texts) : ∀ l : List EV, (normM (toTextM T l)).length = l.length
  | [] => rfl
  | a :: l => by rw [toTextM, normM, List.length_cons, List.length_cons, toTextM_length T l]

mutual
theorem equal_norm (T : Texts) : ∀ (a b : EV), NoUndef a → NoBin a → NoBin b → Numbers (fun n _ => NumTold n) a →
    Numbers (fun n _ => NumTold n) b → normV (toText T a) = normV (toText T b) → equal a b = true
  | .node aa ak aw ash al, .node ba bk bw bsh bl, hu, pa, pb, ha, hb, h => by
    rw [equal.eq_def]
    dsimp only [EV.sh, EV.kids, EV.wrapped]
    rw [toText.eq_def T (.node aa ak aw ash al), toText.eq_def T (.node ba bk bw bsh bl)] at h
    have noStr : ∀ s, ash ≠ .str s true := fun s => pa _ .self s
    have noStr' : ∀ s, bsh ≠ .str s true := fun s => pb _ .self s
    have noU : ash ≠ .undef := hu _ .self
    cases ash with
    | undef => exact absurd rfl noU
    | null => cases bsh <;> first | rfl | (rename_i p; cases p <;> simp [normV] at h) | simp [normV] at h
    | bool x =>
      cases bsh with
      | bool y => simp only [normV, JV.bool.injEq] at h; simp [h]
      | str y q => cases q <;> simp [normV] at h
      | _ => simp [normV] at h
    | num x =>
      cases bsh with
      | num y =>
        dsimp only at h ⊢
        rw [normV, normV, JV.num.injEq] at h
        exact numEq_norm T (ha _ .self _ rfl) (hb _ .self _ rfl) _ h
      | str y q => cases q <;> simp [normV] at h
      | _ => simp [normV] at h
    | str x p =>
      cases p with
      | true => exact absurd rfl (noStr x)
      | false =>
        cases bsh with
        | str y q =>
          cases q with
          | true => exact absurd rfl (noStr' y)
          | false =>
            simp only [normV, JV.str.injEq] at h
            simp [h]
        | _ => simp [normV] at h
    | arr =>
      cases bsh with
      | arr =>
        dsimp only at h ⊢
        rw [normV, normV, JV.arr.injEq] at h
        rw [Bool.and_eq_true, beq_iff_eq]
        exact ⟨by rw [← toTextL_length T al, ← toTextL_length T bl, h], equal_normL T al bl hu.kid pa.kid pb.kid ha.kid hb.kid h⟩
      | str y q => cases q <;> simp [normV] at h
      | _ => simp [normV] at h
    | obj d =>
      cases bsh with
      | obj d' =>
        dsimp only at h ⊢
        rw [normV, normV, JV.obj.injEq] at h
        rw [Bool.and_eq_true, beq_iff_eq]
        exact ⟨by rw [← toTextM_length T al, ← toTextM_length T bl, h], equal_normM T al bl hu.kid pa.kid pb.kid ha.kid hb.kid h⟩
      | str y q => cases q <;> simp [normV] at h
      | _ => simp [normV] at h
theorem equal_normL (T : Texts) : ∀ (l r : List EV), (∀ x ∈ l, NoUndef x) → (∀ x ∈ l, NoBin x) → (∀ x ∈ r, NoBin x) →
    (∀ x ∈ l, Numbers (fun n _ => NumTold n) x) → (∀ x ∈ r, Numbers (fun n _ => NumTold n) x) →
    normL (toTextL T l) = normL (toTextL T r) → equalItems l r = true
  | [], [], _, _, _, _, _, _ => rfl
  | [], _ :: _, _, _, _, _, _, _ => by rw [equalItems]; intro _ _ _ _ h; cases h
  | _ :: _, [], _, _, _, _, _, _ => by rw [equalItems]; intro _ _ _ _ _ h; cases h
  | a :: l, b :: r, hu, pl, pr, hl, hr, h => by
    rw [toTextL, toTextL, normL, normL, List.cons.injEq] at h
    rw [equalItems, Bool.and_eq_true, Bool.or_eq_true]
    exact ⟨Or.inr (equal_norm T a b (hu a (by simp)) (pl a (by simp)) (pr b (by simp)) (hl a (by simp)) (hr b (by simp)) h.1),
      equal_normL T l r (fun x hx => hu x (by simp [hx])) (fun x hx => pl x (by simp [hx])) (fun x hx => pr x (by simp [hx]))
        (fun x hx => hl x (by simp [hx])) (fun x hx => hr x (by simp [hx])) h.2⟩
theorem equal_normM (T : Texts) : ∀ (l r : List EV), (∀ x ∈ l, NoUndef x) → (∀ x ∈ l, NoBin x) → (∀ x ∈ r, NoBin x) →
    (∀ x ∈ l, Numbers (fun n _ => NumTold n) x) → (∀ x ∈ r, Numbers (fun n _ => NumTold n) x) →
    normM (toTextM T l) = normM (toTextM T r) → equalMembers l r = true
  | [], [], _, _, _, _, _, _ => rfl
  | [], _ :: _, _, _, _, _, _, _ => by rw [equalMembers]; intro _ _ _ _ h; cases h
  | _ :: _, [], _, _, _, _, _, _ => by rw [equalMembers]; intro _ _ _ _ _ h; cases h
  | a :: l, b :: r, hu, pl, pr, hl, hr, h => by
    rw [toTextM, toTextM, normM, normM, List.cons.injEq, Prod.mk.injEq] at h
    rw [equalMembers, Bool.and_eq_true, Bool.or_eq_true, Bool.and_eq_true, beq_iff_eq (a := a.key)]
    exact ⟨Or.inr ⟨h.1.1, equal_norm T a b (hu a (by simp)) (pl a (by simp)) (pr b (by simp)) (hl a (by simp)) (hr b (by simp)) h.1.2⟩,
      equal_normM T l r (fun x hx => hu x (by simp [hx])) (fun x hx => pl x (by simp [hx])) (fun x hx => pr x (by simp [hx]))
        (fun x hx => hl x (by simp [hx])) (fun x hx => hr x (by simp [hx])) h.2⟩
end

/-- **C171, equal texts (partial).** Values with the same text (any of the two outputs, also followed by other text) are equal
when they are in the scope of the round trip (C01, C02: well-formed strings other than the texts of infinities, 64-bit integers
without the most negative one, objects with ascending keys) and have nothing undefined, no finite doubles, no precise numbers
and no binary strings. Wanted for all values; the violations below show why these are excluded. -/
theorem C171_text_partial (T : Texts) (u : Bool) (f : Decimal → Bytes) (a b : EV)
    (ha : NoUndef a) (hb : NoUndef b) (pa : NoBin a) (pb : NoBin b)
    (na : Numbers (fun n _ => NumTold n) a) (nb : Numbers (fun n _ => NumTold n) b)
    (wa : Printable u f (toText T a)) (wb : Printable u f (toText T b)) (ta : Tripable {} (toText T a)) (tb : Tripable {} (toText T b))
    (h : Ser.ser u f (toText T a) = Ser.ser u f (toText T b)) : opEq a b = true := by
  obtain ⟨v, h1, h2⟩ := Trip.trip u f {} (fun _ _ => rfl) _ wa ta [] [] (by simp [Ws]) (by simp [Parser.StopNum])
  obtain ⟨w, h3, h4⟩ := Trip.trip u f {} (fun _ _ => rfl) _ wb tb [] [] (by simp [Ws]) (by simp [Parser.StopNum])
  rw [h, h3, Res.ok.injEq, Prod.mk.injEq] at h1
  have h5 := reads_norm {} rfl h2 (clean_toText T a ha na)
  have h6 := reads_norm {} rfl h4 (clean_toText T b hb nb)
  rw [opEq, equal_norm T b a hb pb pa nb na (by rw [← h5, ← h6, h1.1]), Bool.or_true]

/-- **C171, both directions**: for values with integers exact as doubles and infinities as their only numbers, being equal and
having the same text is one thing. -/
theorem C171_iff (T : Texts) (H : Nat → EV) (u : Bool) (f : Decimal → Bytes) (a b : EV) (La : Lives H a) (Lb : Lives H b)
    (ha : NoUndef a) (hb : NoUndef b) (pa : NoBin a) (pb : NoBin b)
    (na : Numbers (fun n _ => NumTold n ∧ NumHash n) a) (nb : Numbers (fun n _ => NumTold n ∧ NumHash n) b)
    (wa : Printable u f (toText T a)) (wb : Printable u f (toText T b)) (ta : Tripable {} (toText T a)) (tb : Tripable {} (toText T b)) :
    opEq a b = true ↔ Ser.stringify u f (toText T a) = Ser.stringify u f (toText T b) := by
  constructor
  · exact C171_equal_partial T H u f a b La Lb (fun x hx n h => (na x hx n h).2) (fun x hx n h => (nb x hx n h).2) pa pb
  · intro h
    unfold Ser.stringify at h
    rw [if_neg, if_neg, Res.ok.injEq] at h
    · exact C171_text_partial T u f a b ha hb pa pb (fun x hx n h => (na x hx n h).1) (fun x hx n h => (nb x hx n h).1) wa wb ta tb h
    · rw [tripable_noMin {} _ tb]; simp
    · rw [tripable_noMin {} _ ta]; simp

/-! ### Violations -/

/-- Texts of the examples: the doubles 2^62, 6004799503160661/2^54 and 6004799503160662/2^54, the precise number `1.0`, Base64 of `a`. -/
def exT : Texts where
  dec b := if b = 0x43D0000000000000 then ⟨false, 2 ^ 62, 0, 0, 0⟩
    else if b = 0x3FD5555555555555 then ⟨false, 0, 6004799503160661 * 5 ^ 54, 54, 0⟩ else ⟨false, 0, 6004799503160662 * 5 ^ 54, 54, 0⟩
  prec _ := ascii "1.0"
  enc _ := ascii "YQ=="

/-- `stringify` with the printed doubles (nine digits). -/
def exText (v : EV) : Res Bytes := Fp.stringifyD exactLib true 9 (toText exT v)

/-- **C171, violation.** Equal numbers have other texts: the integer 2^62 and the double 2^62; the number 1 and the precise number
1.0; integers which round to the same double. A string and a binary string with the same bytes are equal and have other texts. -/
theorem C171_violation_equal :
    (opEq (leaf 1 (.num (.uint (2 ^ 62)))) (leaf 2 (.num (.dbl 0x43D0000000000000))) = true ∧
      exText (leaf 1 (.num (.uint (2 ^ 62)))) = .ok (ascii "4611686018427387904") ∧
      exText (leaf 2 (.num (.dbl 0x43D0000000000000))) = .ok (ascii "4.611686018e+18")) ∧
    (opEq (leaf 1 (.num (.uint 1))) (leaf 2 (.num (.precD 0x3FF0000000000000))) = true ∧
      exText (leaf 1 (.num (.uint 1))) = .ok (ascii "1") ∧
      exText (leaf 2 (.num (.precD 0x3FF0000000000000))) = .ok (ascii "1.0")) ∧
    (opEq (leaf 1 (.num (.int (2 ^ 53)))) (leaf 2 (.num (.uint (2 ^ 53 + 1)))) = true ∧
      exText (leaf 1 (.num (.int (2 ^ 53)))) = .ok (ascii "9007199254740992") ∧
      exText (leaf 2 (.num (.uint (2 ^ 53 + 1)))) = .ok (ascii "9007199254740993")) ∧
    (opEq (leaf 1 (.str [97] false)) (leaf 2 (.str [97] true)) = true ∧
      exText (leaf 1 (.str [97] false)) = .ok (ascii "\"a\"") ∧ exText (leaf 2 (.str [97] true)) = .ok (ascii "\"YQ==\"")) := by
  decide +kernel

/-- **C171, violation.** Values with the same text are not equal: undefined and another undefined or the string `undefined`; the
infinity and the string `∞` or not a number; neighbouring doubles; a string and the same string with an incomplete character;
in escaped output a character above U+FFFF and the one with the same low 16 bits. -/
theorem C171_violation_text :
    (opEq (leaf 1 .undef) (leaf 2 (.str (ascii "undefined") false)) = false ∧ opEq (leaf 1 .undef) (leaf 2 .undef) = false ∧
      exText (leaf 1 .undef) = exText (leaf 2 (.str (ascii "undefined") false))) ∧
    (opEq (leaf 1 (.num (.dbl 0x7FF0000000000000))) (leaf 2 (.str [0xE2, 0x88, 0x9E] false)) = false ∧
      opEq (leaf 1 (.num (.dbl 0x7FF0000000000000))) (leaf 2 (.num (.dbl 0x7FF8000000000000))) = false ∧
      exText (leaf 1 (.num (.dbl 0x7FF0000000000000))) = exText (leaf 2 (.str [0xE2, 0x88, 0x9E] false)) ∧
      exText (leaf 1 (.num (.dbl 0x7FF0000000000000))) = exText (leaf 2 (.num (.dbl 0x7FF8000000000000)))) ∧
    (opEq (leaf 1 (.num (.dbl 0x3FD5555555555555))) (leaf 2 (.num (.dbl 0x3FD5555555555556))) = false ∧
      exText (leaf 1 (.num (.dbl 0x3FD5555555555555))) = .ok (ascii "0.333333333") ∧
      exText (leaf 2 (.num (.dbl 0x3FD5555555555556))) = .ok (ascii "0.333333333")) ∧
    (opEq (leaf 1 (.str [97] false)) (leaf 2 (.str [97, 0xC3] false)) = false ∧
      exText (leaf 1 (.str [97] false)) = exText (leaf 2 (.str [97, 0xC3] false))) ∧
    (opEq (leaf 1 (.str [0xF0, 0x9F, 0x98, 0x80] false)) (leaf 2 (.str [0xEF, 0x98, 0x80] false)) = false ∧
      Ser.stringify false (fun _ => []) (toText exT (leaf 1 (.str [0xF0, 0x9F, 0x98, 0x80] false))) =
        Ser.stringify false (fun _ => []) (toText exT (leaf 2 (.str [0xEF, 0x98, 0x80] false)))) := by
  decide +kernel

/-! ### The hypotheses can be met -/

/-- `{"a":[1,-2,"x",∞]}` twice, with an item shared; a signed 1 in the second one. -/
def exC : EV := .node 1 [] false (.obj false) [.node 2 [97] false .arr
  [leaf 3 (.num (.uint 1)), leaf 4 (.num (.int (-2))), leaf 5 (.str [120] false), leaf 6 (.num (.dbl 0x7FF0000000000000))]]
def exD : EV := .node 11 [] false (.obj false) [.node 12 [97] false .arr
  [leaf 13 (.num (.int 1)), leaf 14 (.num (.int (-2))), leaf 5 (.str [120] false), leaf 16 (.num (.dbl 0x7FF0000000000000))]]

/-- The memory of the two values. -/
def exM (n : Nat) : EV :=
  if n = 1 then exC else if n = 11 then exD
  else ((exC.kids ++ exC.kids.flatMap EV.kids ++ exD.kids ++ exD.kids.flatMap EV.kids).find? (fun v => v.addr == n)).getD exC

theorem told_ex : (NumTold (.uint 1) ∧ NumHash (.uint 1)) ∧ (NumTold (.int 1) ∧ NumHash (.int 1)) ∧ (NumTold (.int (-2)) ∧ NumHash (.int (-2))) ∧
    (NumTold (.dbl 0x7FF0000000000000) ∧ NumHash (.dbl 0x7FF0000000000000)) := by
  have h : dval 0x7FF0000000000000 = .inf false := by decide +kernel
  refine ⟨⟨trivial, ?_⟩, ⟨trivial, ?_⟩, ⟨trivial, ?_⟩, ⟨false, h⟩, by omega, ?_⟩
  · exact (by decide +kernel : rnd 1 = 1)
  · exact (by decide +kernel : rnd (1 : Int).natAbs = (1 : Int).natAbs)
  · exact (by decide +kernel : rnd (-2 : Int).natAbs = (-2 : Int).natAbs)
  · intro k hk
    rw [h] at hk; cases hk

example : (Lives exM exC ∧ NoUndef exC ∧ NoBin exC ∧ Numbers (fun n _ => NumTold n ∧ NumHash n) exC) ∧
    (Lives exM exD ∧ NoUndef exD ∧ NoBin exD ∧ Numbers (fun n _ => NumTold n ∧ NumHash n) exD) := by
  obtain ⟨t1, t2, t3, t4⟩ := told_ex
  have key : ∀ {P : EV → Prop}, (∀ x ∈ subs3 exC, P x) → ∀ x, Sub x exC → P x :=
    fun h x hx => h x (sub_subs3 exC (by simp [exC, EV.kids, leaf]) hx)
  have key' : ∀ {P : EV → Prop}, (∀ x ∈ subs3 exD, P x) → ∀ x, Sub x exD → P x :=
    fun h x hx => h x (sub_subs3 exD (by simp [exD, EV.kids, leaf]) hx)
  refine ⟨⟨key ?_, key ?_, key ?_, key ?_⟩, ⟨key' ?_, key' ?_, key' ?_, key' ?_⟩⟩ <;>
  · intro x hx
    simp only [subs3, exC, exD, EV.kids, List.flatMap_cons, List.flatMap_nil, List.append_nil, List.cons_append, List.nil_append,
      List.mem_cons, List.not_mem_nil, or_false] at hx
    rcases hx with rfl | rfl | rfl | rfl | rfl | rfl <;>
      first | rfl | (simp [leaf, EV.sh]; done) | (intro n hn; simp only [leaf, EV.sh, Sh.num.injEq] at hn; subst hn; assumption)

example (f : Decimal → Bytes) : (Printable true f (toText exT exC) ∧ Tripable {} (toText exT exC)) ∧
    (Printable true f (toText exT exD) ∧ Tripable {} (toText exT exD)) := by
  have h : dval 0x7FF0000000000000 = .inf false := by decide +kernel
  have w1 : StrOk true [97] := ⟨.one (by simp [inR]) .nil, Or.inl rfl⟩
  have w2 : StrOk true [120] := ⟨.one (by simp [inR]) .nil, Or.inl rfl⟩
  simp [exC, exD, leaf, toText, toTextL, toTextM, numText, h, Printable, PrintableL, PrintableM, Tripable, TripableL, TripableM, EV.key,
    StrictSorted, infSign, w1, w2]

example : opEq exC exD = true ∧ exText exC = .ok (ascii "{\"a\":[1,-2,\"x\",\"" ++ [0xE2, 0x88, 0x9E] ++ ascii "\"]}") ∧ exText exD = exText exC := by
  decide +kernel

end Imt.Props
