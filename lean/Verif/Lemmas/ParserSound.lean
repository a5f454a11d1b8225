import Verif.Lemmas.ParserDup
import Verif.Spec.Lenient
/-!
# What the parser accepts lies in the lenient grammar
-/
namespace Imt.Parser
open Imt Imt.Spec

/-- The dialect of a configuration. -/
def Cfg.dialect (cfg : Cfg) : Dialect := ⟨cfg.signedSrc = false, cfg.precise = true, cfg.allowDup = true⟩

theorem skipWs_split (s : Bytes) : ∃ w, LWs w ∧ s = w ++ skipWs s := by
  refine ⟨s.takeWhile isSpace, ?_, (List.takeWhile_append_dropWhile).symm⟩
  intro c hc
  have h := List.all_takeWhile (p := isSpace) (l := s)
  rw [List.all_eq_true] at h
  have h := h c hc
  simp [isSpace] at h
  rcases h with h | h
  · right; omega
  · left; omega

theorem accVal_append (a : Nat) (x y : Bytes) : accVal (accVal a x) y = accVal a (x ++ y) := by
  simp [accVal, List.foldl_append]

theorem parseUnsigned_inv : ∀ (s : Bytes) (a : Nat), a < 2 ^ 64 → ∃ ds, s = ds ++ (parseUnsigned a s).2.2 ∧
    (∀ c ∈ ds, IsDig c) ∧ (parseUnsigned a s).2.1 = accVal a ds ∧ (parseUnsigned a s).2.1 < 2 ^ 64
  | [], a, ha => ⟨[], rfl, by simp, rfl, ha⟩
  | c :: cs, a, ha => by
    rw [parseUnsigned]
    by_cases hd : isDigit c = true
    · rw [if_pos hd]
      by_cases h1 : a > (2 ^ 64 - 1) / 10
      · rw [if_pos h1]; exact ⟨[], rfl, by simp, rfl, ha⟩
      · rw [if_neg h1]
        dsimp only
        by_cases h2 : (a * 10 + (c - 48)) % 2 ^ 64 < a
        · rw [if_pos h2]; exact ⟨[], rfl, by simp, rfl, ha⟩
        · rw [if_neg h2]
          have hI := (isDigit_iff c).1 hd
          have e : (a * 10 + (c - 48)) % 2 ^ 64 = a * 10 + (c - 48) := by
            unfold IsDig at hI
            omega
          obtain ⟨ds, i1, i2, i3, i4⟩ := parseUnsigned_inv cs ((a * 10 + (c - 48)) % 2 ^ 64) (Nat.mod_lt _ (by decide))
          refine ⟨c :: ds, by rw [List.cons_append, ← i1], ?_, ?_, i4⟩
          · intro x hx
            rcases List.mem_cons.1 hx with rfl | hx
            · exact hI
            · exact i2 x hx
          · rw [i3, accVal_cons, e]
    · rw [if_neg hd]; exact ⟨[], rfl, by simp, rfl, ha⟩

theorem digitsVal_inv : ∀ (s : Bytes) (a n : Nat), ∃ ds, s = ds ++ (digitsVal a n s).2.2 ∧
    (∀ c ∈ ds, IsDig c) ∧ (digitsVal a n s).1 = accVal a ds ∧ (digitsVal a n s).2.1 = n + ds.length
  | [], a, n => ⟨[], rfl, by simp, rfl, rfl⟩
  | c :: cs, a, n => by
    rw [digitsVal]
    by_cases hd : isDigit c = true
    · rw [if_pos hd]
      obtain ⟨ds, i1, i2, i3, i4⟩ := digitsVal_inv cs (a * 10 + (c - 48)) (n + 1)
      refine ⟨c :: ds, by rw [List.cons_append, ← i1], ?_, ?_, ?_⟩
      · intro x hx
        rcases List.mem_cons.1 hx with rfl | hx
        · exact (isDigit_iff _).1 hd
        · exact i2 x hx
      · rw [i3, accVal_cons]
      · rw [i4, List.length_cons]; omega
    · rw [if_neg hd]; exact ⟨[], rfl, by simp, rfl, rfl⟩

theorem readSign_inv (s : Bytes) : ∃ sg, s = sg ++ (readSign s).2 ∧ (sg = [] ∨ sg = [0x2B] ∨ sg = [0x2D]) ∧
    (readSign s).1 = decide (sg = [0x2D]) := by
  cases s with
  | nil => exact ⟨[], rfl, by simp, rfl⟩
  | cons c cs =>
    rw [readSign]
    split
    · next e => subst e; exact ⟨[0x2D], rfl, by simp, rfl⟩
    · split
      · next e => subst e; exact ⟨[0x2B], rfl, by simp, rfl⟩
      · exact ⟨[], rfl, by simp, rfl⟩

theorem takeSign_inv (s : Bytes) : s = (takeSign s).1 ++ (takeSign s).2 ∧
    ((takeSign s).1 = [] ∨ (takeSign s).1 = [0x2B] ∨ (takeSign s).1 = [0x2D]) := by
  cases s with
  | nil => exact ⟨rfl, by simp [takeSign]⟩
  | cons c cs =>
    rw [takeSign]
    split
    · next e => rcases e with rfl | rfl <;> simp
    · simp

theorem spanDigits_dig (s : Bytes) : ∀ c ∈ (spanDigits s).1, IsDig c := by
  induction s with
  | nil => simp [spanDigits]
  | cons c cs ih =>
    rw [spanDigits]
    split
    · next h =>
      intro x hx
      rcases List.mem_cons.1 hx with rfl | hx
      · exact (isDigit_iff _).1 h
      · exact ih x hx
    · simp

theorem takeFrac_inv (s : Bytes) : ∃ f : Option Bytes, (∀ x ∈ f, ∀ c ∈ x, IsDig c) ∧ (takeFrac s).1 = fracText f ∧
    s = fracText f ++ (takeFrac s).2 := by
  cases s with
  | nil => exact ⟨none, by simp, rfl, rfl⟩
  | cons c cs =>
    rw [takeFrac]
    split
    · next e =>
      subst e
      refine ⟨some (spanDigits cs).1, ?_, rfl, ?_⟩
      · intro x hx; cases hx; exact spanDigits_dig cs
      · simp [fracText, spanDigits_append]
    · exact ⟨none, by simp, rfl, rfl⟩

theorem parsePrecise_sound {s txt : Bytes} {fl : Bool} {r : Bytes} (D : Dialect) (hD : D.precise) (h : parsePrecise s = .ok (txt, fl, r)) :
    ∃ t : LTok, t.WF D ∧ txt = t.text ∧ s = txt ++ r := by
  unfold parsePrecise at h
  dsimp only at h
  obtain ⟨s1, s2⟩ := takeSign_inv s
  have d1 := spanDigits_append (takeSign s).2
  have d2 := spanDigits_dig (takeSign s).2
  split at h
  · cases h
  · next hne =>
    obtain ⟨f, f1, f2, f3⟩ := takeFrac_inv (spanDigits (takeSign s).2).2
    split at h
    · next he =>
      cases h
      refine ⟨⟨(takeSign s).1, (spanDigits (takeSign s).2).1, f, none⟩, ⟨s2, d2, f1, by simp, fun _ => hne, fun hp => absurd hD hp⟩, ?_, ?_⟩
      · simp [LTok.text, f2, expText]
      · conv => lhs; rw [s1, ← d1, f3, he]
        simp [f2]
    · next c cs he =>
      split at h
      · next hE =>
        split at h
        · cases h
        · next hne2 =>
          cases h
          obtain ⟨e1, e2⟩ := takeSign_inv cs
          have g1 := spanDigits_append (takeSign cs).2
          refine ⟨⟨(takeSign s).1, (spanDigits (takeSign s).2).1, f, some (c, (takeSign cs).1, (spanDigits (takeSign cs).2).1)⟩,
            ⟨s2, d2, f1, ?_, fun _ => hne, fun hp => absurd hD hp⟩, ?_, ?_⟩
          · intro e hee; cases hee
            exact ⟨hE, e2, hne2, spanDigits_dig _⟩
          · simp [LTok.text, f2, expText]
          · conv => lhs; rw [s1, ← d1, f3, he, e1, ← g1]
            simp [f2]
      · cases h
        refine ⟨⟨(takeSign s).1, (spanDigits (takeSign s).2).1, f, none⟩, ⟨s2, d2, f1, by simp, fun _ => hne, fun hp => absurd hD hp⟩, ?_, ?_⟩
        · simp [LTok.text, f2, expText]
        · conv => lhs; rw [s1, ← d1, f3, he]
          simp [f2]

theorem parseFrac_inv {s : Bytes} {v n : Nat} {r : Bytes} (h : parseFrac s = .ok (v, n, r)) : ∃ f : Option Bytes,
    (∀ x ∈ f, Digits1 x) ∧ s = fracText f ++ r ∧ v = decVal (f.getD []) ∧ n = (f.getD []).length ∧
    (s.head? = some 0x2E → f ≠ none) := by
  cases s with
  | nil => cases h; exact ⟨none, by simp, rfl, rfl, rfl, by simp⟩
  | cons c cs =>
    rw [parseFrac.eq_def] at h
    dsimp only at h
    split at h
    · next e =>
      subst e
      split at h
      · cases h
      · next d ds =>
        split at h
        · next hd =>
          obtain ⟨x, i1, i2, i3, i4⟩ := digitsVal_inv (d :: ds) 0 0
          have h' := Res.ok.inj h
          have e1 : (digitsVal 0 0 (d :: ds)).1 = v := by rw [h']
          have e2 : (digitsVal 0 0 (d :: ds)).2.1 = n := by rw [h']
          have e3 : (digitsVal 0 0 (d :: ds)).2.2 = r := by rw [h']
          refine ⟨some x, ?_, ?_, ?_, ?_, by simp⟩
          · intro y hy; cases hy
            refine ⟨?_, i2⟩
            intro e
            rw [digitsVal, if_pos hd] at i4
            obtain ⟨x', j1, j2, j3, j4⟩ := digitsVal_inv ds (0 * 10 + (d - 48)) (0 + 1)
            rw [e] at i4
            rw [j4] at i4
            simp at i4
          · simp only [fracText, List.cons_append]; rw [← e3, ← i1]
          · rw [← e1, i3, Option.getD_some, decVal_eq]
          · rw [← e2, i4, Option.getD_some, Nat.zero_add]
        · cases h
    · next e =>
      cases h
      exact ⟨none, by simp, rfl, rfl, rfl, by simpa using e⟩

theorem parseUnsigned_dig {d : Nat} {ds : Bytes} (hd : isDigit d = true) :
    ∃ x, d :: ds = x ++ (parseUnsigned 0 (d :: ds)).2.2 ∧ Digits1 x ∧ (parseUnsigned 0 (d :: ds)).2.1 = decVal x ∧
      (parseUnsigned 0 (d :: ds)).2.1 < 2 ^ 64 := by
  obtain ⟨x, i1, i2, i3, i4⟩ := parseUnsigned_inv (d :: ds) 0 (by decide)
  refine ⟨x, i1, ⟨?_, i2⟩, by rw [i3, decVal_eq], i4⟩
  intro e
  subst e
  have h1 := isDigit_unsigned ds hd
  rw [List.nil_append] at i1
  have := congrArg List.length i1
  have h2 : (parseUnsigned 0 (d :: ds)).2.2 <:+ ds := by
    rw [parseUnsigned, if_pos hd, if_neg (by decide)]
    dsimp only
    rw [if_neg (by omega)]
    exact parseUnsigned_suffix _ _
  have := h2.length_le
  simp at *
  omega

theorem parseExp_inv {s : Bytes} {x : Int} {r : Bytes} (h : parseExp s = .ok (x, r)) : ∃ e : Option (Nat × Bytes × Bytes),
    (∀ y ∈ e, (y.1 = 0x65 ∨ y.1 = 0x45) ∧ (y.2.1 = [] ∨ y.2.1 = [0x2B] ∨ y.2.1 = [0x2D]) ∧ Digits1 y.2.2) ∧
    s = expText e ++ r ∧ x = expVal e := by
  cases s with
  | nil => cases h; exact ⟨none, by simp, rfl, rfl⟩
  | cons c cs =>
    rw [parseExp.eq_def] at h
    dsimp only at h
    split at h
    · next hE =>
      obtain ⟨sg, g1, g2, g3⟩ := readSign_inv cs
      split at h
      · cases h
      · next d ds he =>
        split at h
        · next hd =>
          obtain ⟨y, i1, i2, i3, i4⟩ := parseUnsigned_dig (ds := ds) hd
          split at h
          · have h' := Res.ok.inj h
            have e1 := congrArg Prod.fst h'
            have e2 := congrArg Prod.snd h'
            dsimp only at e1 e2
            refine ⟨some (c, sg, y), ?_, ?_, ?_⟩
            · intro e hee; cases hee
              exact ⟨(isE_iff c).1 hE, g2, i2⟩
            · simp only [expText, List.cons_append, List.append_assoc]
              rw [← e2, ← i1, ← he, ← g1]
            · rw [← e1, expVal, g3, i3]
              by_cases hs : sg = [0x2D] <;> simp [hs]
          · cases h
        · cases h
    · cases h
      exact ⟨none, by simp, rfl, rfl⟩

theorem parseNumber_sound (cfg : Cfg) {s : Bytes} {v : JV} {r : Bytes} (h : parseNumber cfg s = .ok (v, r)) :
    ∃ t, s = t ++ r ∧ LVal cfg.dialect t v := by
  unfold parseNumber at h
  split at h
  · next hp =>
    obtain ⟨⟨txt, fl, r'⟩, h1, h2⟩ := bind_ok_inv h
    cases h2
    obtain ⟨t, t1, t2, t3⟩ := parsePrecise_sound cfg.dialect hp h1
    obtain ⟨cls, hc⟩ := numberFromStringRaw_prec txt fl
    refine ⟨txt, t3, ?_⟩
    dsimp only
    rw [hc, t2]
    exact LVal.num t1 rfl (Or.inr ⟨_, _, rfl⟩)
  · next hp =>
    have hp' : ¬ cfg.dialect.precise := hp
    dsimp only at h
    obtain ⟨sg, g1, g2, g3⟩ := readSign_inv s
    split at h
    · cases h
    · next c cs he =>
      split at h
      · next hc =>
        obtain ⟨ds, i1, i2, i3, i4⟩ := parseUnsigned_inv (c :: cs) 0 (by decide)
        rw [← decVal_eq] at i3
        split at h
        · next hbr =>
          -- floating point
          unfold parseDouble at h
          dsimp only at h
          obtain ⟨d2, j1, j2, j3, j4⟩ := digitsVal_inv (parseUnsigned 0 (c :: cs)).2.2 (parseUnsigned 0 (c :: cs)).2.1 0
          split at h
          · cases h
          · obtain ⟨⟨fv, fl, fr⟩, hf, h⟩ := bind_ok_inv h
            obtain ⟨⟨ev, er⟩, hx, h⟩ := bind_ok_inv h
            cases h
            obtain ⟨f, f1, f2, f3, f4, f5⟩ := parseFrac_inv hf
            obtain ⟨e, e1, e2, e3⟩ := parseExp_inv hx
            dsimp only at e2
            refine ⟨LTok.text ⟨sg, ds ++ d2, f, e⟩, ?_, LVal.num ?_ ?_ (Or.inl hp')⟩
            · simp only [LTok.text, List.append_assoc]
              rw [← e2, ← f2, ← j1, ← i1, ← he, ← g1]
            · refine ⟨g2, ?_, fun x hx => (f1 x hx).2, e1, fun hq => absurd hq hp', fun _ => ⟨fun x hx => (f1 x hx).1, ?_⟩⟩
              · intro x hx
                rcases List.mem_append.1 hx with hx | hx
                · exact i2 x hx
                · exact j2 x hx
              · intro hnil
                obtain ⟨h1, h2⟩ := List.append_eq_nil_iff.1 hnil
                apply f5
                subst h1 h2
                rw [List.nil_append] at j1
                rw [← j1]
                rw [List.nil_append] at i1
                rw [← i1]
                rcases hc with hc | hc
                · exfalso
                  obtain ⟨y, k1, k2, _⟩ := parseUnsigned_dig (ds := cs) hc
                  rw [← i1] at k1
                  have := congrArg List.length k1
                  simp at this
                  exact k2.1 this
                · rw [hc]; rfl
            · show _ = _
              rw [j3, i3, f3, f4, e3, g3, decVal_eq ds, accVal_append, ← decVal_eq]
        · next hbr =>
          -- integers
          have hds : ds ≠ [] := by
            intro e
            subst e
            rw [List.nil_append] at i1
            rcases hc with hc | hc
            · obtain ⟨y, k1, k2, _⟩ := parseUnsigned_dig (ds := cs) hc
              rw [← i1] at k1
              have := congrArg List.length k1
              simp at this
              exact k2.1 this
            · exact hbr (Or.inr (Or.inl (by rw [← i1, hc]; rfl)))
          have wf : LTok.WF cfg.dialect ⟨sg, ds, none, none⟩ :=
            ⟨g2, i2, by simp, by simp, fun hq => absurd hq hp', fun _ => ⟨by simp, fun e => absurd e hds⟩⟩
          have htext : s = LTok.text ⟨sg, ds, none, none⟩ ++ (parseUnsigned 0 (c :: cs)).2.2 := by
            simp only [LTok.text, fracText, expText, List.append_nil, List.append_assoc]
            rw [← i1, ← he, ← g1]
          split at h
          · next hneg =>
            have hsg : sg = [0x2D] := by rw [g3] at hneg; simpa using hneg
            split at h
            · cases h
              refine ⟨_, htext, LVal.num wf ?_ (Or.inl hp')⟩
              show _ = _
              rw [i3]; simp [hsg, decVal, expVal]
            · have h' := Res.ok.inj h
              have e1 := congrArg Prod.fst h'
              have e2 := congrArg Prod.snd h'
              dsimp only at e1 e2
              rw [← e1, ← e2]
              refine ⟨_, htext, ?_⟩
              unfold valueOfInt
              split
              · next hz =>
                refine LVal.num wf ⟨rfl, rfl, ?_, fun _ => rfl⟩ (Or.inl hp')
                show 0 = decVal ds
                rw [i3] at hz; omega
              · refine LVal.num wf ⟨rfl, rfl, ?_, hsg⟩ (Or.inl hp')
                rw [i3]
          · next hneg =>
            have hsg : sg ≠ [0x2D] := by rw [g3] at hneg; simpa using hneg
            cases h
            exact ⟨_, htext, LVal.num wf ⟨rfl, rfl, i3, fun e => absurd e hsg⟩ (Or.inl hp')⟩
      · cases h

theorem simpleEsc_inv {e b : Nat} (h : simpleEsc e = some b) : Esc1 e b := by
  unfold simpleEsc at h
  split at h
  · next h1 =>
    cases h
    rcases h1 with rfl | rfl | rfl
    · exact .quote
    · exact .back
    · exact .slash
  · split at h
    · next e => subst e; cases h; exact .b
    · split at h
      · next e => subst e; cases h; exact .f
      · split at h
        · next e => subst e; cases h; exact .n
        · split at h
          · next e => subst e; cases h; exact .r
          · split at h
            · next e => subst e; cases h; exact .t
            · cases h

theorem readStr_sound (cfg : Cfg) : ∀ (n : Nat) (s : Bytes), s.length ≤ n → ∀ (d : Utf8.Dec) (b r : Bytes),
    readStr cfg d s = .ok (b, r) → ∃ t, s = t ++ 0x22 :: r ∧ LBody cfg.dialect t := by
  intro n
  induction n with
  | zero =>
    intro s hs d b r h
    have := List.length_eq_zero_iff.1 (Nat.le_zero.1 hs)
    subst this
    rw [readStr.eq_def] at h
    cases h
  | succ n ih =>
    intro s hs d b r h
    cases s with
    | nil => rw [readStr.eq_def] at h; cases h
    | cons c cs =>
      rw [readStr.eq_def] at h
      dsimp only at h
      split at h
      · cases h
      · next hff =>
        split at h
        · next hq => cases h; subst hq; exact ⟨[], rfl, .nil⟩
        · next hq =>
          split at h
          · next hb =>
            subst hb
            split at h
            · cases h
            · next e es =>
              split at h
              · next hu =>
                subst hu
                split at h
                · next h1 h2 h3 h4 r' =>
                  obtain ⟨⟨b', r''⟩, h1, h2⟩ := bind_ok_inv h
                  cases h2
                  obtain ⟨t, t1, t2⟩ := ih r' (by simp at hs; omega) _ _ _ h1
                  exact ⟨_, by rw [t1]; rfl, .uni t2⟩
                · cases h
              · split at h
                · next x hx =>
                  obtain ⟨⟨b', r''⟩, h1, h2⟩ := bind_ok_inv h
                  cases h2
                  obtain ⟨t, t1, t2⟩ := ih es (by simp at hs; omega) _ _ _ h1
                  exact ⟨_, by rw [t1]; rfl, .esc (simpleEsc_inv hx) t2⟩
                · cases h
          · next hb =>
            obtain ⟨⟨b', r''⟩, h1, h2⟩ := bind_ok_inv h
            cases h2
            obtain ⟨t, t1, t2⟩ := ih cs (by simp at hs; omega) _ _ _ h1
            refine ⟨c :: t, by rw [t1]; rfl, .raw hq hb ?_ t2⟩
            intro e
            have : cfg.signedSrc ≠ true := fun hh => hff ⟨e, hh⟩
            simpa [Cfg.dialect] using this

theorem checkKw_inv : ∀ (k s r : Bytes), checkKw k s = .ok r → s = k ++ r
  | [], s, r, h => by rw [checkKw] at h; cases h; rfl
  | _ :: _, [], r, h => by rw [checkKw] at h; cases h
  | k :: ks, c :: cs, r, h => by
    rw [checkKw] at h
    split at h
    · next e => subst e; rw [List.cons_append, ← checkKw_inv ks cs r h]
    · cases h

theorem finishObj_inv (cfg : Cfg) {ms : List (Bytes × JV)} {r : Bytes} {v : JV} {r' : Bytes}
    (h : finishObj cfg ms r = .ok (v, r')) : ∃ o, v = .obj o ∧ r' = r ∧ (cfg.dialect.dup ∨ (ms.map (·.1)).Nodup) ∧
      StrictSorted o ∧ ∀ k, lookup o k = lastVal ms k := by
  unfold finishObj at h
  dsimp only at h
  split at h
  · cases h
  · next hn =>
    cases h
    refine ⟨_, rfl, rfl, ?_, Obj.mkObject_sorted _ _ _, ?_⟩
    · cases hd : cfg.allowDup with
      | true => exact Or.inl hd
      | false =>
        right
        have : (Obj.mkObject JV.defined false ms).length = ms.length := by
          by_cases hl : (Obj.mkObject JV.defined false ms).length = ms.length
          · exact hl
          · exact absurd ⟨hd, hl⟩ hn
        exact (Obj.mkObject_length_eq_iff _ _ _).1 this
    · intro k
      rw [Obj.lookup_eq_lastVal (Obj.mkObject_sorted _ _ _), Obj.mkObject_lastVal]; rfl

theorem stringValue_cases (b : Bytes) : (∃ s, stringValue b = .str s) ∨ ∃ x, stringValue b = .num (.inf x) := by
  unfold stringValue
  split
  · exact Or.inr ⟨_, rfl⟩
  · split
    · exact Or.inr ⟨_, rfl⟩
    · exact Or.inl ⟨_, rfl⟩

theorem parse_sound (cfg : Cfg) : ∀ f : Nat,
    (∀ s v r, parseV cfg f s = .ok (v, r) → ∃ w t, s = w ++ (t ++ r) ∧ LWs w ∧ LVal cfg.dialect t v) ∧
    (∀ s m r, parseMembers cfg f s = .ok (m, r) → ∃ t, s = t ++ 0x7D :: r ∧ LMembs cfg.dialect t m) ∧
    (∀ s m r, parseItems cfg f s = .ok (m, r) → ∃ t, s = t ++ 0x5D :: r ∧ LElems cfg.dialect t m) := by
  intro f
  induction f with
  | zero =>
    refine ⟨?_, ?_, ?_⟩
    · intro s v r h; rw [parseV.eq_def] at h; cases h
    · intro s v r h; rw [parseMembers.eq_def] at h; cases h
    · intro s v r h; rw [parseItems.eq_def] at h; cases h
  | succ f ih =>
    obtain ⟨ihV, ihM, ihI⟩ := ih
    refine ⟨?_, ?_, ?_⟩
    · intro s v r h
      rw [parseV.eq_def] at h
      dsimp only at h
      obtain ⟨w, w1, w2⟩ := skipWs_split s
      have fin : ∀ t, skipWs s = t ++ r → LVal cfg.dialect t v → ∃ w t, s = w ++ (t ++ r) ∧ LWs w ∧ LVal cfg.dialect t v :=
        fun t e ht => ⟨w, t, by rw [← e]; exact w2, w1, ht⟩
      split at h
      · cases h
      · next c r0 he =>
        rw [he] at fin
        split at h
        · next hc =>
          subst hc
          obtain ⟨u, u1, u2⟩ := skipWs_split r0
          split at h
          · cases h
          · next c' r' he' =>
            rw [he'] at u2
            split at h
            · next hc' =>
              cases h; subst hc'
              exact fin _ (by rw [u2]; simp) (.obj0 u1)
            · obtain ⟨⟨m, r1⟩, h1, h2⟩ := bind_ok_inv h
              obtain ⟨t, t1, t2⟩ := ihM _ _ _ h1
              obtain ⟨o, rfl, rfl, o3, o4, o5⟩ := finishObj_inv cfg h2
              have t3 : LMembs cfg.dialect (u ++ t) m := by
                cases t2 with
                | one a b c d e f =>
                  rw [← List.append_assoc]
                  exact .one (fun x hx => by rcases List.mem_append.1 hx with hx | hx; exacts [u1 x hx, a x hx]) b c d e f
                | cons a b c d e f g =>
                  rw [← List.append_assoc]
                  exact .cons (fun x hx => by rcases List.mem_append.1 hx with hx | hx; exacts [u1 x hx, a x hx]) b c d e f g
              exact fin _ (by rw [u2, t1]; simp) (.obj t3 o3 o4 o5)
        · split at h
          · next hc =>
            subst hc
            obtain ⟨u, u1, u2⟩ := skipWs_split r0
            split at h
            · cases h
            · next c' r' he' =>
              rw [he'] at u2
              split at h
              · next hc' =>
                cases h; subst hc'
                exact fin _ (by rw [u2]; simp) (.arr0 u1)
              · obtain ⟨⟨m, r1⟩, h1, h2⟩ := bind_ok_inv h
                cases h2
                obtain ⟨t, t1, t2⟩ := ihI _ _ _ h1
                have t3 : LElems cfg.dialect (u ++ t) m := by
                  cases t2 with
                  | one a b c =>
                    rw [← List.append_assoc]
                    exact .one (fun x hx => by rcases List.mem_append.1 hx with hx | hx; exacts [u1 x hx, a x hx]) b c
                  | cons a b c d =>
                    rw [← List.append_assoc]
                    exact .cons (fun x hx => by rcases List.mem_append.1 hx with hx | hx; exacts [u1 x hx, a x hx]) b c d
                exact fin _ (by rw [u2, t1]; simp) (.arr t3)
          · split at h
            · next hc =>
              subst hc
              obtain ⟨⟨b, r1⟩, h1, h2⟩ := bind_ok_inv h
              cases h2
              obtain ⟨t, t1, t2⟩ := readStr_sound cfg _ _ (Nat.le_refl _) _ _ _ h1
              exact fin _ (by rw [t1]; simp) (.str t2 (stringValue_cases b))
            · split at h
              · obtain ⟨t, h1, h2⟩ := bind_ok_inv h
                cases h2
                exact fin _ (checkKw_inv _ _ _ h1) .true
              · split at h
                · obtain ⟨t, h1, h2⟩ := bind_ok_inv h
                  cases h2
                  exact fin _ (checkKw_inv _ _ _ h1) .false
                · split at h
                  · obtain ⟨t, h1, h2⟩ := bind_ok_inv h
                    cases h2
                    exact fin _ (checkKw_inv _ _ _ h1) .null
                  · split at h
                    · obtain ⟨t, t1, t2⟩ := parseNumber_sound cfg h
                      exact fin t t1 t2
                    · cases h
    · intro s m r h
      rw [parseMembers.eq_def] at h
      try dsimp only at h
      split at h
      · cases h
      · cases h
      · next f' q r0 hf =>
        cases hf
        split at h
        · next hq =>
          subst hq
          obtain ⟨⟨k, r1⟩, h1, h⟩ := bind_ok_inv h
          obtain ⟨kt, k1, k2⟩ := readStr_sound cfg _ _ (Nat.le_refl _) _ _ _ h1
          obtain ⟨u, u1, u2⟩ := skipWs_split r1
          dsimp only at h
          split at h
          · cases h
          · next c r2 he =>
            rw [he] at u2
            split at h
            · next hc =>
              subst hc
              obtain ⟨⟨v, r3⟩, h3, h⟩ := bind_ok_inv h
              obtain ⟨w2, t, t1, t2, t3⟩ := ihV _ _ _ h3
              obtain ⟨x, x1, x2⟩ := skipWs_split r3
              dsimp only at h
              split at h
              · cases h
              · next c2 r4 he2 =>
                rw [he2] at x2
                split at h
                · next hc2 =>
                  cases h; subst hc2
                  refine ⟨_, ?_, LMembs.one (w := []) (by simp [LWs]) k2 u1 t2 t3 x1⟩
                  rw [k1, u2, t1, x2]; simp
                · split at h
                  · next hc2 =>
                    subst hc2
                    obtain ⟨⟨m', r5⟩, h5, h⟩ := bind_ok_inv h
                    cases h
                    obtain ⟨t', y1, y2⟩ := ihM _ _ _ h5
                    obtain ⟨z, z1, z2⟩ := skipWs_split r4
                    have y3 : LMembs cfg.dialect (z ++ t') m' := by
                      cases y2 with
                      | one a b c d e f =>
                        rw [← List.append_assoc]
                        exact .one (fun x hx => by rcases List.mem_append.1 hx with hx | hx; exacts [z1 x hx, a x hx]) b c d e f
                      | cons a b c d e f g =>
                        rw [← List.append_assoc]
                        exact .cons (fun x hx => by rcases List.mem_append.1 hx with hx | hx; exacts [z1 x hx, a x hx]) b c d e f g
                    refine ⟨_, ?_, LMembs.cons (w := []) (by simp [LWs]) k2 u1 t2 t3 x1 y3⟩
                    rw [k1, u2, t1, x2, z2, y1]; simp
                  · cases h
            · cases h
        · cases h
    · intro s m r h
      rw [parseItems.eq_def] at h
      dsimp only at h
      obtain ⟨⟨v, r3⟩, h3, h⟩ := bind_ok_inv h
      obtain ⟨w2, t, t1, t2, t3⟩ := ihV _ _ _ h3
      obtain ⟨x, x1, x2⟩ := skipWs_split r3
      dsimp only at h
      split at h
      · cases h
      · next c2 r4 he2 =>
        rw [he2] at x2
        split at h
        · next hc2 =>
          cases h; subst hc2
          exact ⟨_, by rw [t1, x2]; simp, LElems.one t2 t3 x1⟩
        · split at h
          · next hc2 =>
            subst hc2
            obtain ⟨⟨m', r5⟩, h5, h⟩ := bind_ok_inv h
            cases h
            obtain ⟨t', y1, y2⟩ := ihI _ _ _ h5
            exact ⟨_, by rw [t1, x2, y1]; simp, LElems.cons t2 t3 x1 y2⟩
          · cases h

end Imt.Parser
