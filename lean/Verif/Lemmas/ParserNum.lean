import Verif.Lemmas.Parser
import Verif.Spec.Meaning
/-! # Lemmas on number parsing -/
namespace Imt.Parser
open Imt Spec

/-- Value of a digit string read after `a`. -/
def accVal (a : Nat) (ds : Bytes) : Nat := ds.foldl (fun a c => a * 10 + (c - 48)) a

theorem decVal_eq (ds : Bytes) : decVal ds = accVal 0 ds := by
  simp only [decVal, accVal]

theorem accVal_cons (a c : Nat) (ds : Bytes) : accVal a (c :: ds) = accVal (a * 10 + (c - 48)) ds := by
  simp only [accVal, List.foldl_cons]

theorem accVal_ge (a : Nat) (ds : Bytes) : a ≤ accVal a ds := by
  induction ds generalizing a with
  | nil => exact Nat.le_refl _
  | cons c ds ih => rw [accVal_cons]; exact Nat.le_trans (by omega) (ih _)

theorem isDigit_iff (c : Nat) : isDigit c = true ↔ IsDig c := by simp [isDigit, IsDig]

/-- The rest does not continue a digit string. -/
def StopDig (rest : Bytes) : Prop := ∀ c r, rest = c :: r → isDigit c = false

theorem parseUnsigned_stop (a : Nat) (rest : Bytes) (h : StopDig rest) : parseUnsigned a rest = (true, a, rest) := by
  cases rest with
  | nil => rfl
  | cons c r => simp [parseUnsigned, h c r rfl]

theorem parseUnsigned_small (ds rest : Bytes) (hd : ∀ c ∈ ds, IsDig c) (hr : StopDig rest) (a : Nat)
    (h : accVal a ds < 2 ^ 64) : parseUnsigned a (ds ++ rest) = (true, accVal a ds, rest) := by
  induction ds generalizing a with
  | nil => exact parseUnsigned_stop a rest hr
  | cons c ds ih =>
    rw [accVal_cons] at h ⊢
    have hge := accVal_ge (a * 10 + (c - 48)) ds
    have hc := hd c (by simp)
    have hc' := hc
    simp only [IsDig] at hc'
    have h1 : ¬ a > (2 ^ 64 - 1) / 10 := by omega
    have h2 : (a * 10 + (c - 48)) % 2 ^ 64 = a * 10 + (c - 48) := Nat.mod_eq_of_lt (by omega)
    rw [List.cons_append, parseUnsigned, if_pos ((isDigit_iff c).2 hc), if_neg h1]
    simp only [h2]
    rw [if_neg (by omega)]
    exact ih (fun x hx => hd x (by simp [hx])) _ h

theorem parseUnsigned_large (ds rest : Bytes) (hd : ∀ c ∈ ds, IsDig c) (a : Nat) (ha : a < 2 ^ 64)
    (h : 2 ^ 64 ≤ accVal a ds) : ∃ m ds2, parseUnsigned a (ds ++ rest) = (false, m, ds2 ++ rest) ∧ ds2 ≠ [] ∧
      (∀ c ∈ ds2, IsDig c) ∧ accVal m ds2 = accVal a ds := by
  induction ds generalizing a with
  | nil => simp only [accVal, List.foldl_nil] at h; omega
  | cons c ds ih =>
    have hc := hd c (by simp)
    have hc' := hc
    simp only [IsDig] at hc'
    rw [List.cons_append, parseUnsigned, if_pos ((isDigit_iff c).2 hc)]
    by_cases h1 : a > (2 ^ 64 - 1) / 10
    · rw [if_pos h1]
      exact ⟨a, c :: ds, rfl, by simp, hd, rfl⟩
    · rw [if_neg h1]
      dsimp only
      by_cases h2 : a * 10 + (c - 48) < 2 ^ 64
      · rw [Nat.mod_eq_of_lt h2, if_neg (by omega)]
        rw [accVal_cons] at h
        rw [accVal_cons]
        exact ih (fun x hx => hd x (by simp [hx])) _ h2 h
      · rw [if_pos (by omega)]
        exact ⟨a, c :: ds, rfl, by simp, hd, rfl⟩

theorem digitsVal_stop (a n : Nat) (rest : Bytes) (h : StopDig rest) : digitsVal a n rest = (a, n, rest) := by
  cases rest with
  | nil => rfl
  | cons c r => simp [digitsVal, h c r rfl]

theorem digitsVal_append (ds rest : Bytes) (hd : ∀ c ∈ ds, IsDig c) (hr : StopDig rest) (a n : Nat) :
    digitsVal a n (ds ++ rest) = (accVal a ds, n + ds.length, rest) := by
  induction ds generalizing a n with
  | nil => exact digitsVal_stop a n rest hr
  | cons c ds ih =>
    rw [List.cons_append, digitsVal, if_pos ((isDigit_iff c).2 (hd c (by simp))),
      ih (fun x hx => hd x (by simp [hx])), accVal_cons, List.length_cons]
    congr 2
    omega

theorem spanDigits_stop (rest : Bytes) (h : StopDig rest) : spanDigits rest = ([], rest) := by
  cases rest with
  | nil => rfl
  | cons c r => simp [spanDigits, h c r rfl]

theorem spanDigits_run (ds rest : Bytes) (hd : ∀ c ∈ ds, IsDig c) (hr : StopDig rest) :
    spanDigits (ds ++ rest) = (ds, rest) := by
  induction ds with
  | nil => exact spanDigits_stop rest hr
  | cons c ds ih =>
    rw [List.cons_append, spanDigits, if_pos ((isDigit_iff c).2 (hd c (by simp))),
      ih (fun x hx => hd x (by simp [hx]))]

/-- The rest does not continue a number. -/
def StopNum (rest : Bytes) : Prop := ∀ c r, rest = c :: r → isDigit c = false ∧ c ≠ 0x2E ∧ c ≠ 0x65 ∧ c ≠ 0x45

theorem StopNum.dig {rest : Bytes} (h : StopNum rest) : StopDig rest := fun c r e => (h c r e).1

theorem isE_iff (c : Nat) : isE c = true ↔ c = 0x65 ∨ c = 0x45 := by simp [isE]

theorem parseExp_stop (rest : Bytes) (h : StopNum rest) : parseExp rest = .ok (0, rest) := by
  cases rest with
  | nil => rfl
  | cons c r =>
    have := h c r rfl
    have hE : ¬ isE c = true := by rw [isE_iff]; omega
    rw [parseExp, if_neg hE]

/-- A text beginning with a digit is neither a sign nor anything else special. -/
theorem dig_ne {c : Nat} (h : IsDig c) : c ≠ 0x2D ∧ c ≠ 0x2B ∧ c ≠ 0x2E ∧ c ≠ 0x65 ∧ c ≠ 0x45 := by
  simp only [IsDig] at h; omega

theorem readSign_digits (ds rest : Bytes) (h : Digits1 ds) : readSign (ds ++ rest) = (false, ds ++ rest) := by
  obtain ⟨h0, h1⟩ := h
  cases ds with
  | nil => exact absurd rfl h0
  | cons c ds =>
    have := dig_ne (h1 c (by simp))
    simp [readSign, this]

theorem takeSign_digits (ds rest : Bytes) (h : Digits1 ds) : takeSign (ds ++ rest) = ([], ds ++ rest) := by
  obtain ⟨h0, h1⟩ := h
  cases ds with
  | nil => exact absurd rfl h0
  | cons c ds =>
    have := dig_ne (h1 c (by simp))
    simp [takeSign, this]

theorem parseExp_text (e : Option (Nat × Bytes × Bytes)) (rest : Bytes)
    (hw : ∀ x ∈ e, (x.1 = 0x65 ∨ x.1 = 0x45) ∧ (x.2.1 = [] ∨ x.2.1 = [0x2B] ∨ x.2.1 = [0x2D]) ∧ Digits1 x.2.2)
    (hf : ExpFits e) (hr : StopNum rest) : parseExp (expText e ++ rest) = .ok (expVal e, rest) := by
  cases e with
  | none => simpa [expText, expVal] using parseExp_stop rest hr
  | some e =>
    obtain ⟨ch, sg, ds⟩ := e
    obtain ⟨hE, hs, hd⟩ := hw _ rfl
    have hv := hf _ rfl
    dsimp only at hE hs hd hv
    have hne := hd.1
    have hu := parseUnsigned_small ds rest hd.2 hr.dig 0 hv
    simp only [expText, List.cons_append, List.append_assoc, parseExp]
    rw [if_pos ((isE_iff ch).2 hE)]
    have hsg : readSign (sg ++ (ds ++ rest)) = (decide (sg = [0x2D]), ds ++ rest) := by
      rcases hs with rfl | rfl | rfl
      · simpa using readSign_digits ds rest hd
      · simp [readSign]
      · simp [readSign]
    rw [hsg]
    obtain ⟨d, ds', rfl⟩ : ∃ d ds', ds = d :: ds' := List.exists_cons_of_ne_nil hne
    dsimp only [List.cons_append]
    rw [if_pos ((isDigit_iff d).2 (hd.2 d (by simp)))]
    rw [List.cons_append] at hu
    rw [hu]
    simp only [expVal, if_true]
    rcases hs with rfl | rfl | rfl <;> simp [decVal_eq]

theorem expText_stop (e : Option (Nat × Bytes × Bytes)) (rest : Bytes) (hr : StopNum rest)
    (hw : ∀ x ∈ e, (x.1 = 0x65 ∨ x.1 = 0x45)) :
    StopDig (expText e ++ rest) ∧ ∀ c r, expText e ++ rest = c :: r → c ≠ 0x2E := by
  cases e with
  | none => exact ⟨by simpa [expText] using hr.dig, fun c r h => (hr c r (by simpa [expText] using h)).2.1⟩
  | some e =>
    have := hw e rfl
    refine ⟨fun c r h => ?_, fun c r h => ?_⟩
    · simp only [expText, List.cons_append, List.cons.injEq] at h
      rw [← h.1]
      rcases this with h | h <;> rw [h] <;> decide
    · simp only [expText, List.cons_append, List.cons.injEq] at h
      omega

theorem parseFrac_text (f : Option Bytes) (rest : Bytes) (hf : ∀ x ∈ f, Digits1 x) (hr : StopDig rest)
    (hdot : ∀ c r, rest = c :: r → c ≠ 0x2E) :
    parseFrac (fracText f ++ rest) = .ok (decVal (f.getD []), (f.getD []).length, rest) := by
  cases f with
  | none =>
    simp only [fracText, List.nil_append]
    cases rest with
    | nil => rfl
    | cons c r =>
      rw [parseFrac.eq_def]
      dsimp only
      rw [if_neg (hdot c r rfl)]
      simp [decVal]
  | some f =>
    have hd := hf f rfl
    obtain ⟨d, ds, rfl⟩ : ∃ d ds, f = d :: ds := List.exists_cons_of_ne_nil hd.1
    have := digitsVal_append (d :: ds) rest hd.2 hr 0 0
    simp only [fracText, List.cons_append, parseFrac, if_true]
    rw [if_pos ((isDigit_iff d).2 (hd.2 d (by simp)))]
    rw [List.cons_append] at this
    rw [this]
    simp [decVal_eq]

theorem parseDouble_text (cfg : Cfg) (a : Nat) (neg : Bool) (ds : Bytes) (f : Option Bytes)
    (e : Option (Nat × Bytes × Bytes)) (rest : Bytes) (hd : ∀ c ∈ ds, IsDig c) (hf : ∀ x ∈ f, Digits1 x)
    (hw : ∀ x ∈ e, (x.1 = 0x65 ∨ x.1 = 0x45) ∧ (x.2.1 = [] ∨ x.2.1 = [0x2B] ∨ x.2.1 = [0x2D]) ∧ Digits1 x.2.2)
    (hx : ExpFits e) (hr : StopNum rest) (hl : cfg.tooLong (accVal a ds) = false) :
    parseDouble cfg a neg (ds ++ (fracText f ++ (expText e ++ rest))) =
      .ok (.num (.dbl ⟨neg, accVal a ds, decVal (f.getD []), (f.getD []).length, expVal e⟩), rest) := by
  have he := expText_stop e rest hr (fun x h => (hw x h).1)
  have hfs : StopDig (fracText f ++ (expText e ++ rest)) := by
    cases f with
    | none => simpa [fracText] using he.1
    | some f =>
      intro c r h
      simp only [fracText, List.cons_append, List.cons.injEq] at h
      rw [← h.1]; decide
  unfold parseDouble
  simp only [digitsVal_append ds _ hd hfs a 0, hl]
  rw [if_neg (by simp), parseFrac_text f _ hf he.1 he.2]
  simp only [Res.bind_ok]
  rw [parseExp_text e rest hw hx hr]
  rfl

/-- A number token that may have leading zeros. -/
def Loose (t : NumTok) : Prop := Digits1 t.int ∧ (∀ f ∈ t.frac, Digits1 f) ∧
  ∀ e ∈ t.exp, (e.1 = 0x65 ∨ e.1 = 0x45) ∧ (e.2.1 = [] ∨ e.2.1 = [0x2B] ∨ e.2.1 = [0x2D]) ∧ Digits1 e.2.2

theorem Loose.of_wf {t : NumTok} (h : t.WF) : Loose t := ⟨h.int.1, h.frac, h.exp⟩

/-- Default mode: a number token followed by something that does not continue it. -/
theorem parseNumber_text (cfg : Cfg) (hc : cfg.precise = false) (t : NumTok) (h : Loose t) (hf : NumFits cfg t)
    (rest : Bytes) (hr : StopNum rest) : parseNumber cfg (t.text ++ rest) = .ok (.num (interpNum t), rest) := by
  obtain ⟨neg, int, frac, exp⟩ := t
  obtain ⟨hd, hfr, hex⟩ := h
  obtain ⟨hl, hx⟩ := hf
  dsimp only at hd hfr hex hl hx
  have he := expText_stop exp rest hr (fun x h => (hex x h).1)
  unfold parseNumber
  rw [if_neg (by simp [hc])]
  have hsg : readSign (NumTok.text ⟨neg, int, frac, exp⟩ ++ rest) =
      (neg, int ++ (fracText frac ++ (expText exp ++ rest))) := by
    cases neg
    · simp only [NumTok.text, List.append_assoc]
      exact readSign_digits int _ hd
    · simp [NumTok.text, readSign]
  rw [hsg]
  dsimp only
  obtain ⟨d, ds, rfl⟩ : ∃ d ds, int = d :: ds := List.exists_cons_of_ne_nil hd.1
  dsimp only [List.cons_append]
  rw [if_pos (Or.inl ((isDigit_iff d).2 (hd.2 d (by simp))))]
  have hfs : StopDig (fracText frac ++ (expText exp ++ rest)) := by
    cases frac with
    | none => simpa [fracText] using he.1
    | some f =>
      intro c r h
      simp only [fracText, List.cons_append, List.cons.injEq] at h
      rw [← h.1]; decide
  have hdbl : ∀ m ds2, (∀ c ∈ ds2, IsDig c) → accVal m ds2 = decVal (d :: ds) →
      parseDouble cfg m neg (ds2 ++ (fracText frac ++ (expText exp ++ rest))) =
        .ok (.num (.dbl (NumTok.value ⟨neg, d :: ds, frac, exp⟩)), rest) := by
    intro m ds2 h2 hv
    rw [parseDouble_text cfg m neg ds2 frac exp rest h2 hfr hex hx hr (by rw [hv]; exact hl), hv]
    rfl
  by_cases hv : decVal (d :: ds) < 2 ^ 64
  · have hu := parseUnsigned_small (d :: ds) _ hd.2 hfs 0 hv
    rw [List.cons_append, ← decVal_eq] at hu
    rw [hu]
    dsimp only
    by_cases hi : frac = none ∧ exp = none
    · obtain ⟨rfl, rfl⟩ := hi
      simp only [fracText, expText, List.nil_append]
      have hcond : ¬ (true = false ∨ List.head? rest = some 0x2E ∨ (Option.map isE (List.head? rest)).getD false = true) := by
        cases rest with
        | nil => simp
        | cons c r =>
          have := hr c r rfl
          have hE : isE c = false := by
            by_cases h : isE c = true
            · rw [isE_iff] at h; omega
            · simpa using h
          simp [this.2.1, hE]
      refine Eq.trans (if_neg hcond) ?_
      cases neg
      · simp only [interpNum, interpInt, valueOfUInt]
        simp [hv]
      · rw [if_pos rfl]
        by_cases h63 : decVal (d :: ds) < 2 ^ 63
        · rw [if_neg (by omega)]
          by_cases h0 : decVal (d :: ds) = 0
          · simp [interpNum, interpInt, valueOfInt, h0]
          · simp only [interpNum, interpInt, valueOfInt, and_self, if_true, h0, h63, if_false]
            rw [if_neg (by omega)]
        · rw [if_pos (by omega)]
          have h0 : decVal (d :: ds) ≠ 0 := by omega
          simp [interpNum, interpInt, h0, h63]
    · have : interpNum ⟨neg, d :: ds, frac, exp⟩ = .dbl (NumTok.value ⟨neg, d :: ds, frac, exp⟩) := by
        simp only [interpNum]; rw [if_neg hi]
      rw [this]
      rw [if_pos]
      · exact hdbl _ [] (by simp) rfl
      · cases frac with
        | some f => right; left; simp [fracText]
        | none =>
          cases exp with
          | none => simp at hi
          | some e =>
            right; right
            have := (hex e rfl).1
            simp [fracText, expText, isE, this]
  · obtain ⟨m, ds2, hu, -, hd2, hval⟩ := parseUnsigned_large (d :: ds) (fracText frac ++ (expText exp ++ rest)) hd.2 0
      (by decide) (by rw [← decVal_eq]; omega)
    rw [List.cons_append] at hu
    rw [hu]
    dsimp only
    rw [if_pos (Or.inl rfl), hdbl m ds2 hd2 hval]
    by_cases hi : frac = none ∧ exp = none
    · obtain ⟨rfl, rfl⟩ := hi
      have h0 : decVal (d :: ds) ≠ 0 := by omega
      have h63 : ¬ decVal (d :: ds) < 2 ^ 63 := by omega
      have hi : interpNum ⟨neg, d :: ds, none, none⟩ = interpInt neg (decVal (d :: ds)) := by
        unfold interpNum; exact if_pos ⟨rfl, rfl⟩
      rw [hi]
      cases neg
      · rw [interpInt, if_neg (by simp), if_neg hv]
        rfl
      · rw [interpInt, if_pos rfl, if_neg h0, if_neg h63]
        rfl
    · simp only [interpNum]; rw [if_neg hi]

end Imt.Parser
