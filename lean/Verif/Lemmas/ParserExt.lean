import Verif.Lemmas.Parser
/-!
# What follows a value does not matter

A successful call of the parser on `s` gives the same on `s ++ q`, unless it stopped only because the input ended.
-/
namespace Imt.Parser
open Imt

theorem skipWs_ext {s : Bytes} {c : Nat} {r : Bytes} (h : skipWs s = c :: r) (q : Bytes) : skipWs (s ++ q) = c :: (r ++ q) := by
  unfold skipWs at *
  induction s with
  | nil => cases h
  | cons a s ih =>
    rw [List.dropWhile_cons] at h
    rw [List.cons_append, List.dropWhile_cons]
    split at h
    · rename_i ha; rw [if_pos ha]; exact ih h
    · rename_i ha; rw [if_neg ha]; cases h; rfl

theorem parseUnsigned_ext {s : Bytes} : ∀ (a : Nat), (parseUnsigned a s).2.2 ≠ [] → ∀ q,
    parseUnsigned a (s ++ q) = ((parseUnsigned a s).1, (parseUnsigned a s).2.1, (parseUnsigned a s).2.2 ++ q) := by
  induction s with
  | nil => intro a h; exact absurd rfl h
  | cons c cs ih =>
    intro a h q
    rw [List.cons_append, parseUnsigned, parseUnsigned]
    rw [parseUnsigned] at h
    split
    · rename_i hc
      rw [if_pos hc] at h
      split
      · rfl
      · rename_i h1
        rw [if_neg h1] at h
        dsimp only at h ⊢
        split
        · rfl
        · rename_i h2
          rw [if_neg h2] at h
          exact ih _ h q
    · rfl

theorem digitsVal_ext {s : Bytes} : ∀ (a n : Nat), (digitsVal a n s).2.2 ≠ [] → ∀ q,
    digitsVal a n (s ++ q) = ((digitsVal a n s).1, (digitsVal a n s).2.1, (digitsVal a n s).2.2 ++ q) := by
  induction s with
  | nil => intro a n h; exact absurd rfl h
  | cons c cs ih =>
    intro a n h q
    rw [List.cons_append, digitsVal, digitsVal]
    rw [digitsVal] at h
    split
    · rename_i hc
      rw [if_pos hc] at h
      exact ih _ _ h q
    · rfl

theorem spanDigits_ext {s : Bytes} (h : (spanDigits s).2 ≠ []) (q : Bytes) :
    spanDigits (s ++ q) = ((spanDigits s).1, (spanDigits s).2 ++ q) := by
  induction s with
  | nil => exact absurd rfl h
  | cons c cs ih =>
    rw [List.cons_append, spanDigits, spanDigits]
    rw [spanDigits] at h
    split
    · rename_i hc
      rw [if_pos hc] at h
      rw [ih h]
    · rfl

theorem readSign_ext {s : Bytes} (h : (readSign s).2 ≠ []) (q : Bytes) : readSign (s ++ q) = ((readSign s).1, (readSign s).2 ++ q) := by
  cases s with
  | nil => exact absurd rfl h
  | cons c cs =>
    simp only [List.cons_append, readSign]
    repeat' split
    all_goals rfl

theorem takeSign_ext {s : Bytes} (h : (takeSign s).2 ≠ []) (q : Bytes) : takeSign (s ++ q) = ((takeSign s).1, (takeSign s).2 ++ q) := by
  cases s with
  | nil => exact absurd rfl h
  | cons c cs =>
    simp only [List.cons_append, takeSign]
    repeat' split
    all_goals rfl

theorem takeFrac_ext {s : Bytes} (h : (takeFrac s).2 ≠ []) (q : Bytes) : takeFrac (s ++ q) = ((takeFrac s).1, (takeFrac s).2 ++ q) := by
  cases s with
  | nil => exact absurd rfl h
  | cons c cs =>
    simp only [List.cons_append, takeFrac] at h ⊢
    split at h
    · rename_i hc
      rw [if_pos hc, if_pos hc, spanDigits_ext h]
    · rename_i hc
      rw [if_neg hc, if_neg hc]; rfl

theorem parseFrac_ext {s : Bytes} {x : Nat × Nat × Bytes} (h : parseFrac s = .ok x) (hx : x.2.2 ≠ []) (q : Bytes) :
    parseFrac (s ++ q) = .ok (x.1, x.2.1, x.2.2 ++ q) := by
  cases s with
  | nil => cases h; exact absurd rfl hx
  | cons c cs =>
    rw [List.cons_append, parseFrac.eq_def]
    rw [parseFrac.eq_def] at h
    dsimp only at h ⊢
    split at h
    · rename_i hc
      rw [if_pos hc]
      cases cs with
      | nil => cases h
      | cons d ds =>
        simp only at h
        simp only [List.cons_append]
        split at h
        · rename_i hd
          rw [if_pos hd]
          cases h
          have := digitsVal_ext (s := d :: ds) 0 0 hx q
          rw [List.cons_append] at this
          rw [this]
        · cases h
    · rename_i hc
      rw [if_neg hc]
      cases h; rfl

theorem parseExp_ext {s : Bytes} {x : Int × Bytes} (h : parseExp s = .ok x) (hx : x.2 ≠ []) (q : Bytes) :
    parseExp (s ++ q) = .ok (x.1, x.2 ++ q) := by
  cases s with
  | nil => cases h; exact absurd rfl hx
  | cons c cs =>
    rw [List.cons_append, parseExp.eq_def]
    rw [parseExp.eq_def] at h
    dsimp only at h ⊢
    split at h
    · rename_i hc
      rw [if_pos hc]
      have hne : (readSign cs).2 ≠ [] := by
        intro e; rw [e] at h; cases h
      rw [readSign_ext hne]
      dsimp only
      cases hs : (readSign cs).2 with
      | nil => exact absurd hs hne
      | cons d ds =>
        rw [hs] at h
        dsimp only at h
        rw [List.cons_append]
        dsimp only
        split at h
        · rename_i hd
          rw [if_pos hd]
          split at h
          · rename_i hu
            cases h
            have := parseUnsigned_ext (s := d :: ds) 0 hx q
            rw [List.cons_append] at this
            rw [this, if_pos hu]
          · cases h
        · cases h
    · rename_i hc
      rw [if_neg hc]
      cases h; rfl

theorem parseDouble_ext {cfg : Cfg} {n : Nat} {neg : Bool} {s : Bytes} {x : JV × Bytes} (h : parseDouble cfg n neg s = .ok x)
    (hx : x.2 ≠ []) (q : Bytes) : parseDouble cfg n neg (s ++ q) = .ok (x.1, x.2 ++ q) := by
  unfold parseDouble at h ⊢
  dsimp only at h ⊢
  split at h
  · cases h
  · rename_i hl
    cases hf : parseFrac (digitsVal n 0 s).2.2 with
    | ok f =>
      rw [hf] at h
      simp only [Res.bind_ok] at h
      cases he : parseExp f.2.2 with
      | ok e =>
        rw [he] at h
        cases h
        have h1 : f.2.2 ≠ [] := by
          intro e1; rw [e1] at he; cases he; exact hx rfl
        have h2 : (digitsVal n 0 s).2.2 ≠ [] := by
          intro e1; rw [e1] at hf; cases hf; exact h1 rfl
        rw [digitsVal_ext _ _ h2 q, if_neg hl]
        rw [parseFrac_ext hf h1 q]
        simp only [Res.bind_ok]
        rw [parseExp_ext he hx q]
        rfl
      | _ => rw [he] at h; cases h
    | _ => rw [hf] at h; cases h

theorem parsePrecise_ext {s : Bytes} {x : Bytes × Bool × Bytes} (h : parsePrecise s = .ok x) (hx : x.2.2 ≠ []) (q : Bytes) :
    parsePrecise (s ++ q) = .ok (x.1, x.2.1, x.2.2 ++ q) := by
  unfold parsePrecise at h ⊢
  dsimp only at h ⊢
  split at h
  · cases h
  · rename_i h1
    split at h
    · cases h; exact absurd rfl hx
    · rename_i c cs he
      have n3 : (takeFrac (spanDigits (takeSign s).2).2).2 ≠ [] := by rw [he]; exact fun e => by cases e
      have n2 : (spanDigits (takeSign s).2).2 ≠ [] := by intro e; rw [e] at n3; exact n3 rfl
      have n1 : (takeSign s).2 ≠ [] := by intro e; rw [e] at n2; exact n2 rfl
      rw [takeSign_ext n1]
      dsimp only
      rw [spanDigits_ext n2]
      dsimp only
      rw [if_neg h1, takeFrac_ext n3, he]
      dsimp only [List.cons_append]
      split at h
      · rename_i hc
        rw [if_pos hc]
        split at h
        · cases h
        · rename_i h2
          cases h
          have m1 : (takeSign cs).2 ≠ [] := by intro e; rw [e] at hx; exact hx rfl
          rw [takeSign_ext m1]
          dsimp only
          rw [spanDigits_ext hx, if_neg h2]
      · rename_i hc
        rw [if_neg hc]
        cases h
        rfl

theorem head_ext {r : Bytes} (h : r ≠ []) (q : Bytes) : (r ++ q).head? = r.head? := by
  cases r with
  | nil => exact absurd rfl h
  | cons a r => rfl

theorem parseNumber_ext {cfg : Cfg} {s : Bytes} {x : JV × Bytes} (h : parseNumber cfg s = .ok x) (hx : x.2 ≠ []) (q : Bytes) :
    parseNumber cfg (s ++ q) = .ok (x.1, x.2 ++ q) := by
  unfold parseNumber at h ⊢
  split at h
  · rename_i hp
    rw [if_pos hp]
    cases he : parsePrecise s with
    | ok e =>
      rw [he] at h; cases h
      rw [parsePrecise_ext he hx q]; rfl
    | _ => rw [he] at h; cases h
  · rename_i hp
    rw [if_neg hp]
    dsimp only at h ⊢
    split at h
    · cases h
    · rename_i c cs he
      have n1 : (readSign s).2 ≠ [] := by rw [he]; exact fun e => by cases e
      rw [readSign_ext n1, he]
      dsimp only [List.cons_append]
      split at h
      · rename_i hd
        rw [if_pos hd]
        have n2 : (parseUnsigned 0 (c :: cs)).2.2 ≠ [] := by
          intro e
          rw [e] at h
          split at h
          · cases h; exact hx rfl
          · split at h
            · split at h
              · cases h; exact hx rfl
              · cases h; exact hx rfl
            · cases h; exact hx rfl
        have e2 := parseUnsigned_ext (s := c :: cs) 0 n2 q
        rw [List.cons_append] at e2
        rw [e2]
        dsimp only
        rw [head_ext n2]
        split at h
        · rename_i hh
          rw [if_pos hh]
          exact parseDouble_ext h hx q
        · rename_i hh
          rw [if_neg hh]
          split at h
          · rename_i hs
            rw [if_pos hs]
            split at h
            · rename_i hb
              rw [if_pos hb]; cases h; rfl
            · rename_i hb
              rw [if_neg hb]; cases h; rfl
          · rename_i hs
            rw [if_neg hs]; cases h; rfl
      · cases h

theorem checkKw_ext {k : Bytes} : ∀ {s r : Bytes}, checkKw k s = .ok r → ∀ q, checkKw k (s ++ q) = .ok (r ++ q) := by
  induction k with
  | nil => intro s r h q; cases h; rfl
  | cons a k ih =>
    intro s r h q
    cases s with
    | nil => cases h
    | cons c cs =>
      rw [List.cons_append]
      unfold checkKw at h ⊢
      split at h
      · rename_i hc; rw [if_pos hc]; exact ih h q
      · cases h

theorem readStr_ext {cfg : Cfg} (q : Bytes) (s : Bytes) : ∀ (d : Utf8.Dec) (x : Bytes × Bytes), readStr cfg d s = .ok x →
    readStr cfg d (s ++ q) = .ok (x.1, x.2 ++ q) := by
  induction hn : s.length using Nat.strongRecOn generalizing s with
  | _ n ih =>
    intro d x h
    cases s with
    | nil => rw [readStr.eq_def] at h; cases h
    | cons c cs =>
      have lift : ∀ (d' : Utf8.Dec) (r : Bytes) (f : Bytes → Bytes), r <:+ cs →
          (readStr cfg d' r >>= fun t => pure (f t.1, t.2)) = .ok x →
          (readStr cfg d' (r ++ q) >>= fun t => pure (f t.1, t.2)) = .ok (x.1, x.2 ++ q) := by
        intro d' r f hr hx
        have hl := hr.length_le
        cases hq : readStr cfg d' r with
        | ok t =>
          rw [hq] at hx
          cases hx
          rw [ih r.length (by simp at hn; omega) r rfl d' t hq]
          rfl
        | _ => rw [hq] at hx; cases hx
      rw [List.cons_append, readStr.eq_def]
      rw [readStr.eq_def] at h
      dsimp only at h ⊢
      split at h
      · cases h
      · rename_i h1
        rw [if_neg h1]
        split at h
        · rename_i h2
          rw [if_pos h2]; cases h; rfl
        · rename_i h2
          rw [if_neg h2]
          split at h
          · rename_i h3
            rw [if_pos h3]
            cases cs with
            | nil => cases h
            | cons e es =>
              dsimp only [List.cons_append] at h ⊢
              split at h
              · rename_i h4
                rw [if_pos h4]
                split at h
                · exact lift _ _ _ ⟨[e, _, _, _, _], rfl⟩ h
                · cases h
              · rename_i h4
                rw [if_neg h4]
                split at h
                · rename_i b hb
                  exact lift _ _ _ (List.suffix_cons _ _) h
                · cases h
          · rename_i h3
            rw [if_neg h3]
            exact lift _ _ _ (List.suffix_refl _) h

theorem finishObj_ext {cfg : Cfg} {ms : List (Bytes × JV)} {r : Bytes} {x : JV × Bytes} (h : finishObj cfg ms r = .ok x)
    (q : Bytes) : finishObj cfg ms (r ++ q) = .ok (x.1, x.2 ++ q) := by
  unfold finishObj at *
  dsimp only at *
  split at h
  · cases h
  · rename_i hc
    rw [if_neg hc]; cases h; rfl

/-- The text starts as the parser expects of a number (parser.h:277-280). -/
def startsNum (s : Bytes) : Prop :=
  ∃ c r, skipWs s = c :: r ∧ (isDigit c = true ∨ c = 0x2B ∨ c = 0x2D ∨ c = 0x2E)

theorem kw_ext {α : Type} {k s : Bytes} {v : α} {x : α × Bytes} (h : (checkKw k s >>= fun t => pure (v, t)) = Res.ok x) (q : Bytes) :
    (checkKw k (s ++ q) >>= fun t => pure (v, t)) = Res.ok (x.1, x.2 ++ q) := by
  cases hk : checkKw k s with
  | ok r => rw [hk] at h; cases h; rw [checkKw_ext hk q]; rfl
  | _ => rw [hk] at h; cases h

theorem parse_ext (cfg : Cfg) (q : Bytes) (f : Nat) :
    (∀ (s : Bytes) (x : JV × Bytes), parseV cfg f s = .ok x → (x.2 ≠ [] ∨ ¬ startsNum s) →
      parseV cfg f (s ++ q) = .ok (x.1, x.2 ++ q)) ∧
    (∀ (s : Bytes) (x : List (Bytes × JV) × Bytes), parseMembers cfg f s = .ok x →
      parseMembers cfg f (s ++ q) = .ok (x.1, x.2 ++ q)) ∧
    (∀ (s : Bytes) (x : List JV × Bytes), parseItems cfg f s = .ok x →
      parseItems cfg f (s ++ q) = .ok (x.1, x.2 ++ q)) := by
  induction f with
  | zero =>
    refine ⟨fun s x h => ?_, fun s x h => ?_, fun s x h => ?_⟩
    · rw [parseV] at h; cases h
    · rw [parseMembers] at h; cases h
    · rw [parseItems] at h; cases h
  | succ f ih =>
    obtain ⟨ihV, ihM, ihI⟩ := ih
    refine ⟨?_, ?_, ?_⟩
    · intro s x h hx
      rw [parseV] at h ⊢
      split at h
      · cases h
      · rename_i c r he
        rw [skipWs_ext he q]
        dsimp only
        split at h
        · rename_i h1
          rw [if_pos h1]
          split at h
          · cases h
          · rename_i c' r' he'
            rw [skipWs_ext he' q]
            dsimp only
            split at h
            · rename_i h2
              rw [if_pos h2]; cases h; rfl
            · rename_i h2
              rw [if_neg h2]
              cases hm : parseMembers cfg f (c' :: r') with
              | ok m =>
                rw [hm] at h
                have := ihM _ _ hm
                rw [List.cons_append] at this
                rw [this]
                exact finishObj_ext h q
              | _ => rw [hm] at h; cases h
        · rename_i h1
          rw [if_neg h1]
          split at h
          · rename_i h2
            rw [if_pos h2]
            split at h
            · cases h
            · rename_i c' r' he'
              rw [skipWs_ext he' q]
              dsimp only
              split at h
              · rename_i h3
                rw [if_pos h3]; cases h; rfl
              · rename_i h3
                rw [if_neg h3]
                cases hm : parseItems cfg f (c' :: r') with
                | ok m =>
                  rw [hm] at h
                  have := ihI _ _ hm
                  rw [List.cons_append] at this
                  rw [this]
                  cases h; rfl
                | _ => rw [hm] at h; cases h
          · rename_i h2
            rw [if_neg h2]
            split at h
            · rename_i h3
              rw [if_pos h3]
              cases hm : readStr cfg Utf8.Dec.init r with
              | ok m =>
                rw [hm] at h
                rw [readStr_ext q _ _ _ hm]
                cases h; rfl
              | _ => rw [hm] at h; cases h
            · rename_i h3
              rw [if_neg h3]
              split at h
              · rename_i h4
                rw [if_pos h4]; exact kw_ext h q
              · rename_i h4
                rw [if_neg h4]
                split at h
                · rename_i h5
                  rw [if_pos h5]; exact kw_ext h q
                · rename_i h5
                  rw [if_neg h5]
                  split at h
                  · rename_i h6
                    rw [if_pos h6]; exact kw_ext h q
                  · rename_i h6
                    rw [if_neg h6]
                    split at h
                    · rename_i h7
                      rw [if_pos h7]
                      rcases hx with hx | hx
                      · exact parseNumber_ext h hx q
                      · exact absurd ⟨c, r, he, h7⟩ hx
                    · cases h
    · intro s x h
      cases s with
      | nil => rw [parseMembers] at h; cases h
      | cons a r =>
        rw [List.cons_append]
        rw [parseMembers] at h ⊢
        split at h
        · rename_i h1
          rw [if_pos h1]
          cases hk : readStr cfg Utf8.Dec.init r with
          | ok k =>
            rw [hk] at h
            rw [readStr_ext q _ _ _ hk]
            simp only [Res.bind_ok] at h ⊢
            split at h
            · cases h
            · rename_i c r2 he
              rw [skipWs_ext he q]
              dsimp only
              split at h
              · rename_i h2
                rw [if_pos h2]
                cases hv : parseV cfg f r2 with
                | ok v =>
                  rw [hv] at h
                  simp only [Res.bind_ok] at h ⊢
                  split at h
                  · cases h
                  · rename_i c2 r4 he2
                    have hne : v.2 ≠ [] := by intro e; rw [e] at he2; cases he2
                    rw [ihV _ _ hv (.inl hne)]
                    simp only [Res.bind_ok]
                    rw [skipWs_ext he2 q]
                    dsimp only
                    split at h
                    · rename_i h3
                      rw [if_pos h3]; cases h; rfl
                    · rename_i h3
                      rw [if_neg h3]
                      split at h
                      · rename_i h4
                        rw [if_pos h4]
                        cases hm : parseMembers cfg f (skipWs r4) with
                        | ok m =>
                          rw [hm] at h
                          have hs : skipWs (r4 ++ q) = skipWs r4 ++ q := by
                            cases hw : skipWs r4 with
                            | nil =>
                              rw [hw] at hm
                              cases f with
                              | zero => rw [parseMembers] at hm; cases hm
                              | succ f => rw [parseMembers] at hm; cases hm
                            | cons b w => exact skipWs_ext hw q
                          rw [hs, ihM _ _ hm]
                          cases h; rfl
                        | _ => rw [hm] at h; cases h
                      · cases h
                | _ => rw [hv] at h; cases h
              · cases h
          | _ => rw [hk] at h; cases h
        · cases h
    · intro s x h
      rw [parseItems] at h ⊢
      cases hv : parseV cfg f s with
      | ok v =>
        rw [hv] at h
        simp only [Res.bind_ok] at h ⊢
        split at h
        · cases h
        · rename_i c2 r4 he2
          have hne : v.2 ≠ [] := by intro e; rw [e] at he2; cases he2
          rw [ihV _ _ hv (.inl hne)]
          simp only [Res.bind_ok]
          rw [skipWs_ext he2 q]
          dsimp only
          split at h
          · rename_i h3
            rw [if_pos h3]; cases h; rfl
          · rename_i h3
            rw [if_neg h3]
            split at h
            · rename_i h4
              rw [if_pos h4]
              cases hm : parseItems cfg f r4 with
              | ok m =>
                rw [hm] at h
                rw [ihI _ _ hm]
                cases h; rfl
              | _ => rw [hm] at h; cases h
            · cases h
      | _ => rw [hv] at h; cases h

end Imt.Parser
