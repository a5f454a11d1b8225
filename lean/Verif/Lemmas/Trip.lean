import Verif.Lemmas.Ser
import Verif.Lemmas.ParserDup
import Verif.Spec.Reads
/-! # Reading back what was written -/
namespace Imt.Trip
open Imt Spec Parser

theorem mkObject_id (l : Obj.Members JV) (h : StrictSorted l) : Obj.mkObject JV.defined false l = l := by
  apply Obj.eq_of_lookup_eq (Obj.mkObject_sorted _ _ _) h
  intro k
  rw [Obj.lookup_eq_lastVal (Obj.mkObject_sorted _ _ _), Obj.lookup_eq_lastVal h, Obj.mkObject_lastVal]
  rfl

theorem strictSorted_keys {α β : Type} {a : List (Bytes × α)} {b : List (Bytes × β)} (h : a.map (·.1) = b.map (·.1))
    (hs : StrictSorted a) : StrictSorted b := by
  unfold StrictSorted at *
  have h1 := List.pairwise_map (f := fun x : Bytes × α => x.1) (R := fun x y => cmpBytes x y = .lt) (l := a)
  have h2 := List.pairwise_map (f := fun x : Bytes × β => x.1) (R := fun x y => cmpBytes x y = .lt) (l := b)
  rw [h] at h1
  exact h2.1 (h1.2 hs)

theorem denotesM_keys {f : Decimal → Bytes} : {l : List (Bytes × JV)} → {j : List (Bytes × SJ)} → DenotesM f l j →
    l.map (·.1) = j.map (·.1)
  | _, _, .nil => rfl
  | _, _, .cons (k := k) _ h => congrArg (k :: ·) (denotesM_keys h)

theorem rawAcc_exact (ds : Bytes) (hd : ∀ c ∈ ds, IsDig c) (acc : Nat) (h : accVal acc ds < 2 ^ 64) :
    rawAcc acc ds = some (accVal acc ds) := by
  induction ds generalizing acc with
  | nil => rfl
  | cons c ds ih =>
    have hc := hd c (by simp)
    have hle : acc * 10 + (c - 48) ≤ accVal acc (c :: ds) := by
      rw [accVal_cons]; exact accVal_ge _ _
    have h1 : (acc * 10 + (c - 48)) % 2 ^ 64 = acc * 10 + (c - 48) := Nat.mod_eq_of_lt (by omega)
    rw [rawAcc, if_pos ((isDigit_iff c).2 hc)]
    dsimp only
    rw [h1, if_neg (by omega), ih (fun x hx => hd x (by simp [hx])) _ (by simpa [accVal] using h)]
    simp [accVal]

/-- Precise numbers: the text of an integer that fits gets its exact value. -/
theorem raw_nat (ds : Bytes) (hd : Digits1 ds) (h : decVal ds < 2 ^ 64) :
    numberFromStringRaw ds false = .prec ds (.unat (decVal ds)) := by
  obtain ⟨d, r, rfl⟩ := List.exists_cons_of_ne_nil hd.1
  have hdd := hd.2 d (by simp)
  unfold IsDig at hdd
  have e1 : d ≠ 0x2D := by omega
  have e2 : d ≠ 0x2B := by omega
  unfold numberFromStringRaw
  simp only [Bool.false_eq_true, if_false, List.head?_cons, beq_iff_eq, Option.some.injEq, e1, e2, Bool.or_eq_true, or_self]
  rw [rawAcc_exact _ hd.2 0 (by rw [← decVal_eq]; exact h), ← decVal_eq]

theorem raw_neg (ds : Bytes) (hd : Digits1 ds) (h : decVal ds < 2 ^ 63) :
    numberFromStringRaw (0x2D :: ds) false = .prec (0x2D :: ds) (.sint (-(decVal ds : Int))) := by
  unfold numberFromStringRaw
  simp only [Bool.false_eq_true, if_false, List.head?_cons, beq_self_eq_true, Bool.true_or, if_true, List.drop_succ_cons,
    List.drop_zero]
  rw [rawAcc_exact _ hd.2 0 (by rw [← decVal_eq]; omega), ← decVal_eq]
  dsimp only
  rw [if_neg (by rw [Nat.mod_eq_of_lt (by omega)]; omega)]

theorem natAbs_neg_eq {i : Int} (h : i < 0) : -(i.natAbs : Int) = i := by omega

theorem fits_num {cfg : Cfg} {t : NumTok} (h : cfg.precise = false → NumFits cfg t) : Fits cfg (.num t) := by
  refine ⟨by rw [NumsFit]; exact h, by rw [DupFree.eq_def]; trivial⟩

theorem numFits_int {cfg : Cfg} {t : NumTok} (htl : ∀ n < 2 ^ 64, cfg.tooLong n = false) (h : decVal t.int < 2 ^ 64)
    (he : t.exp = none) : NumFits cfg t := ⟨htl _ h, by simp [he, ExpFits]⟩

theorem interp_int {cfg : Cfg} {t : NumTok} (hp : cfg.precise = false) (h2 : t.frac = none) (h3 : t.exp = none) :
    interpV cfg (.num t) = .num (interpInt t.neg (decVal t.int)) := by
  simp [interpV, hp, interpNum, h2, h3]

theorem interp_intP {cfg : Cfg} {t : NumTok} (hp : cfg.precise = true) (h2 : t.frac = none) (h3 : t.exp = none) :
    interpV cfg (.num t) = .num (numberFromStringRaw (if t.neg then 0x2D :: t.int else t.int) false) := by
  cases hn : t.neg <;> simp [interpV, hp, h2, h3, NumTok.text, fracText, expText, hn]

theorem reads_nat (cfg : Cfg) (v : JV) (t : NumTok) (n : Nat) (hn : n < 2 ^ 64) (h0 : Digits1 t.int) (h1 : t.neg = false)
    (h2 : t.frac = none) (h3 : t.exp = none) (h4 : decVal t.int = n) (hv : v = .num (.uint n) ∨ v = .num (.int n)) :
    Reads cfg v (interpV cfg (.num t)) := by
  cases hp : cfg.precise with
  | false =>
    have : interpInt false n = .uint n := by simp [interpInt, hn]
    rw [interp_int hp h2 h3, h1, h4, this]
    rcases hv with rfl | rfl
    · exact .uint hp
    · exact .nat hp
  | true =>
    rw [interp_intP hp h2 h3, h1, if_neg (by simp), raw_nat _ h0 (by omega), h4]
    rcases hv with rfl | rfl
    · exact .uintP hp h0 h4
    · exact .natP hp h0 h4

theorem stringValue_str {s : Bytes} (h : s ≠ infSign ∧ s ≠ 0x2D :: infSign) : stringValue s = .str s := by
  unfold infSign at h
  unfold stringValue
  rw [if_neg h.1, if_neg h.2]

mutual
theorem reads (cfg : Cfg) (f : Decimal → Bytes) (htl : ∀ n < 2 ^ 64, cfg.tooLong n = false) :
    {v : JV} → {j : SJ} → Denotes f v j → Tripable cfg v → Fits cfg j ∧ Reads cfg v (interpV cfg j)
  | _, _, .undef, _ => ⟨⟨by rw [NumsFit.eq_def]; trivial, by rw [DupFree.eq_def]; trivial⟩, by rw [interpV]; exact .undef⟩
  | _, _, .null, _ => ⟨⟨by rw [NumsFit.eq_def]; trivial, by rw [DupFree.eq_def]; trivial⟩, by rw [interpV]; exact .null⟩
  | _, _, .bool, _ => ⟨⟨by rw [NumsFit.eq_def]; trivial, by rw [DupFree.eq_def]; trivial⟩, by rw [interpV]; exact .bool⟩
  | _, _, .uint (n := n) (t := t) h0 h1 h2 h3 h4, h => by
      rw [Tripable] at h
      exact ⟨fits_num fun _ => numFits_int htl (by omega) h3, reads_nat cfg _ t n h h0 h1 h2 h3 h4 (Or.inl rfl)⟩
  | _, _, .int (i := i) (t := t) h0 h1 h2 h3 h4, h => by
      rw [Tripable] at h
      refine ⟨fits_num fun _ => numFits_int htl (by omega) h3, ?_⟩
      by_cases hi : i < 0
      · have h1' : t.neg = true := by rw [h1]; simpa using hi
        have hv : decVal t.int < 2 ^ 63 := by omega
        cases hp : cfg.precise with
        | false =>
          have h0' : i.natAbs ≠ 0 := by omega
          have hlt : i.natAbs < 2 ^ 63 := by omega
          have : interpInt true i.natAbs = .int i := by
            unfold interpInt
            rw [if_pos rfl, if_neg h0', if_pos hlt, natAbs_neg_eq hi]
          rw [interp_int hp h2 h3, h1', h4, this]
          exact .neg hp hi
        | true =>
          rw [interp_intP hp h2 h3, h1', if_pos rfl, raw_neg _ h0 hv, h4, natAbs_neg_eq hi]
          exact .negP hp hi h0 h4
      · obtain ⟨n, rfl⟩ := Int.eq_ofNat_of_zero_le (by omega : 0 ≤ i)
        have h1' : t.neg = false := by rw [h1]; simpa using hi
        exact reads_nat cfg _ t n (by omega) h0 h1' h2 h3 (by simpa using h4) (Or.inr rfl)
  | _, _, .dbl _ _, h => by simp [Tripable] at h
  | _, _, .posInf, _ => ⟨⟨by rw [NumsFit.eq_def]; trivial, by rw [DupFree.eq_def]; trivial⟩, by rw [interpV]; exact .inf⟩
  | _, _, .negInf, _ => ⟨⟨by rw [NumsFit.eq_def]; trivial, by rw [DupFree.eq_def]; trivial⟩, by rw [interpV]; exact .inf⟩
  | _, _, .prec (t := t) hw he, h => by
      rw [Tripable] at h
      refine ⟨fits_num fun hp => h hp t hw he, ?_⟩
      cases hp : cfg.precise with
      | false =>
        rw [interpV, if_neg (by simp [hp])]
        exact .prec hp hw he
      | true =>
        obtain ⟨cls, hcls⟩ := numberFromStringRaw_prec t.text (decide (¬ (t.frac = none ∧ t.exp = none)))
        rw [interpV, if_pos hp, hcls, he]
        exact .precP hp
  | _, _, .str, h => by
      rw [Tripable] at h
      refine ⟨⟨by rw [NumsFit.eq_def]; trivial, by rw [DupFree.eq_def]; trivial⟩, ?_⟩
      rw [interpV, stringValue_str h]; exact .str
  | _, _, .arr hl, h => by
      rw [Tripable] at h
      obtain ⟨h1, h2⟩ := readsL cfg f htl hl h
      refine ⟨⟨by rw [NumsFit]; exact h1.1, by rw [DupFree]; exact h1.2⟩, ?_⟩
      rw [interpV]; exact .arr h2
  | _, _, .obj (l := l) (l' := l') hl, h => by
      rw [Tripable] at h
      obtain ⟨h1, h2⟩ := readsM cfg f htl hl h.2
      have hk := denotesM_keys hl
      have hs : StrictSorted l' := strictSorted_keys hk h.1
      refine ⟨⟨by rw [NumsFit]; exact h1.1, by rw [DupFree]; exact ⟨h1.2, fun _ => Obj.strictSorted_nodup hs⟩⟩, ?_⟩
      rw [interpV, mkObject_id _ (strictSorted_keys (interpM_keys cfg l').symm hs)]
      exact .obj h2
theorem readsL (cfg : Cfg) (f : Decimal → Bytes) (htl : ∀ n < 2 ^ 64, cfg.tooLong n = false) :
    {l : List JV} → {j : List SJ} → DenotesL f l j → TripableL cfg l → FitsL cfg j ∧ ReadsL cfg l (interpL cfg j)
  | _, _, .nil, _ => ⟨⟨by rw [NumsFitL]; trivial, by rw [DupFreeL]; trivial⟩, by rw [interpL]; exact .nil⟩
  | _, _, .cons hv hl, h => by
      rw [TripableL] at h
      obtain ⟨h1, h2⟩ := reads cfg f htl hv h.1
      obtain ⟨h3, h4⟩ := readsL cfg f htl hl h.2
      exact ⟨⟨by rw [NumsFitL]; exact ⟨h1.1, h3.1⟩, by rw [DupFreeL]; exact ⟨h1.2, h3.2⟩⟩, by rw [interpL]; exact .cons h2 h4⟩
theorem readsM (cfg : Cfg) (f : Decimal → Bytes) (htl : ∀ n < 2 ^ 64, cfg.tooLong n = false) :
    {l : List (Bytes × JV)} → {j : List (Bytes × SJ)} → DenotesM f l j → TripableM cfg l →
      FitsM cfg j ∧ ReadsM cfg l (interpM cfg j)
  | _, _, .nil, _ => ⟨⟨by rw [NumsFitM]; trivial, by rw [DupFreeM]; trivial⟩, by rw [interpM]; exact .nil⟩
  | _, _, .cons hv hl, h => by
      rw [TripableM] at h
      obtain ⟨h1, h2⟩ := reads cfg f htl hv h.1
      obtain ⟨h3, h4⟩ := readsM cfg f htl hl h.2
      exact ⟨⟨by rw [NumsFitM]; exact ⟨h1.1, h3.1⟩, by rw [DupFreeM]; exact ⟨h1.2, h3.2⟩⟩, by rw [interpM]; exact .cons h2 h4⟩
end

mutual
theorem reads_eq (cfg : Cfg) (hp : cfg.precise = false) : {v w : JV} → Reads cfg v w → Plain v → w = v
  | _, _, .undef, h => by simp [Plain] at h
  | _, _, .null, _ => rfl
  | _, _, .bool, _ => rfl
  | _, _, .uint _, _ => rfl
  | _, _, .nat (n := n) _, h => by simp only [Plain] at h; omega
  | _, _, .neg _ _, _ => rfl
  | _, _, .uintP h _ _, _ => by rw [hp] at h; cases h
  | _, _, .natP h _ _, _ => by rw [hp] at h; cases h
  | _, _, .negP h _ _ _, _ => by rw [hp] at h; cases h
  | _, _, .inf, _ => rfl
  | _, _, .prec _ _ _, h => by simp [Plain] at h
  | _, _, .precP h, _ => by rw [hp] at h; cases h
  | _, _, .str, _ => rfl
  | _, _, .arr hl, h => by rw [Plain] at h; rw [reads_eqL cfg hp hl h]
  | _, _, .obj hl, h => by rw [Plain] at h; rw [reads_eqM cfg hp hl h]
theorem reads_eqL (cfg : Cfg) (hp : cfg.precise = false) : {v w : List JV} → ReadsL cfg v w → PlainL v → w = v
  | _, _, .nil, _ => rfl
  | _, _, .cons hv hl, h => by
    rw [PlainL] at h
    rw [reads_eq cfg hp hv h.1, reads_eqL cfg hp hl h.2]
theorem reads_eqM (cfg : Cfg) (hp : cfg.precise = false) : {v w : List (Bytes × JV)} → ReadsM cfg v w → PlainM v → w = v
  | _, _, .nil, _ => rfl
  | _, _, .cons hv hl, h => by
    rw [PlainM] at h
    rw [reads_eq cfg hp hv h.1, reads_eqM cfg hp hl h.2]
end

/-- The round trip. -/
theorem trip (u8 : Bool) (f : Decimal → Bytes) (cfg : Cfg) (htl : ∀ n < 2 ^ 64, cfg.tooLong n = false) (v : JV)
    (h : Printable u8 f v) (ht : Tripable cfg v) (w rest : Bytes) (hw : Ws w) (hr : StopNum rest) :
    ∃ v', parse cfg (w ++ (Ser.ser u8 f v ++ rest)) = .ok (v', rest) ∧ Reads cfg v v' := by
  obtain ⟨j, hj, hd⟩ := Ser.ser_grammar u8 f v h
  obtain ⟨hf, hr'⟩ := reads cfg f htl hd ht
  exact ⟨_, parse_grammar cfg hj hf w rest hw hr, hr'⟩

end Imt.Trip
