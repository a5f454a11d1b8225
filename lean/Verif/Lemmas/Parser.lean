import Verif.Model.Parser
import Verif.Lemmas.Basic
/-! # Lemmas on the text parser: suffixes, termination, fuel -/
namespace Imt.Parser
open Imt

/-- The outcome is an exception or a result whose part `g` is a suffix of `s`. -/
def GoodBy {α : Type} (g : α → Bytes) (s : Bytes) : Res α → Prop
  | .ok p => g p <:+ s
  | .err => True
  | _ => False

/-- The outcome is an exception or a result whose rest is a suffix of `s`. -/
def Good {α : Type} (s : Bytes) : Res (α × Bytes) → Prop
  | .ok p => p.2 <:+ s
  | .err => True
  | _ => False

theorem Good.mono {α : Type} {r s : Bytes} {x : Res (α × Bytes)} (h : Good r x) (hs : r <:+ s) : Good s x := by
  cases x <;> simp_all [Good]
  exact h.trans hs

theorem Good.bind {α β : Type} {s : Bytes} {x : Res (α × Bytes)} {f : α × Bytes → Res (β × Bytes)} (h : Good s x)
    (hf : ∀ p, p.2 <:+ s → x = .ok p → Good s (f p)) : Good s (x >>= f) := by
  cases x <;> simp_all [Good]

theorem skipWs_suffix (s : Bytes) : skipWs s <:+ s := List.dropWhile_suffix _

theorem suffix_tail {c : Nat} {r s : Bytes} (h : c :: r <:+ s) : r <:+ s := (List.suffix_cons c r).trans h

theorem suffix_len_lt {c : Nat} {r s : Bytes} (h : c :: r <:+ s) : r.length < s.length := by
  have := h.length_le; simp at this; omega

theorem parseUnsigned_suffix (n : Nat) (s : Bytes) : (parseUnsigned n s).2.2 <:+ s := by
  induction s generalizing n with
  | nil => simp [parseUnsigned]
  | cons c cs ih =>
    unfold parseUnsigned
    split
    · split
      · simp
      · dsimp only
        split
        · simp
        · exact (ih _).trans (List.suffix_cons c cs)
    · simp

theorem digitsVal_suffix (a n : Nat) (s : Bytes) : (digitsVal a n s).2.2 <:+ s := by
  induction s generalizing a n with
  | nil => simp [digitsVal]
  | cons c cs ih =>
    unfold digitsVal
    split
    · exact (ih _ _).trans (List.suffix_cons c cs)
    · simp

theorem readSign_suffix (s : Bytes) : (readSign s).2 <:+ s := by
  unfold readSign
  split
  · simp
  · split
    · exact List.suffix_cons _ _
    · split
      · exact List.suffix_cons _ _
      · simp

theorem takeSign_suffix (s : Bytes) : (takeSign s).2 <:+ s := by
  unfold takeSign
  split
  · simp
  · split
    · exact List.suffix_cons _ _
    · simp

theorem spanDigits_append (s : Bytes) : (spanDigits s).1 ++ (spanDigits s).2 = s := by
  induction s with
  | nil => simp [spanDigits]
  | cons c cs ih => unfold spanDigits; split <;> simp [ih]

theorem spanDigits_suffix (s : Bytes) : (spanDigits s).2 <:+ s := ⟨(spanDigits s).1, spanDigits_append s⟩

theorem parseFrac_good (s : Bytes) : GoodBy (·.2.2) s (parseFrac s) := by
  unfold parseFrac
  split
  · simp [GoodBy]
  · rename_i c cs
    split
    · rename_i h
      split
      · trivial
      · rename_i d ds
        split
        · exact (digitsVal_suffix _ _ _).trans (List.suffix_cons _ _)
        · trivial
    · simp [GoodBy]

theorem parseExp_good (s : Bytes) : Good s (parseExp s) := by
  unfold parseExp
  split
  · simp [Good]
  · rename_i c cs
    split
    · dsimp only
      have h1 := readSign_suffix cs
      split
      · trivial
      · rename_i d ds he
        rw [he] at h1
        split
        · split
          · simp only [Good]
            exact (parseUnsigned_suffix _ _).trans (h1.trans (List.suffix_cons _ _))
          · trivial
        · trivial
    · simp [Good]

theorem parseDouble_good (cfg : Cfg) (n : Nat) (neg : Bool) (s : Bytes) : Good s (parseDouble cfg n neg s) := by
  unfold parseDouble
  dsimp only
  split
  · trivial
  · have h1 := digitsVal_suffix n 0 s
    have h2 := parseFrac_good (digitsVal n 0 s).2.2
    cases hf : parseFrac (digitsVal n 0 s).2.2 with
    | ok f =>
      rw [hf] at h2
      simp only [Res.bind_ok]
      have h3 := parseExp_good f.2.2
      cases he : parseExp f.2.2 with
      | ok e => rw [he] at h3; exact (h3.trans h2).trans h1
      | err => trivial
      | _ => rw [he] at h3; exact h3.elim
    | err => trivial
    | _ => rw [hf] at h2; exact h2.elim

theorem takeFrac_suffix (s : Bytes) : (takeFrac s).2 <:+ s := by
  unfold takeFrac
  split
  · simp
  · split
    · exact (spanDigits_suffix _).trans (List.suffix_cons _ _)
    · simp

theorem parsePrecise_good (s : Bytes) : GoodBy (·.2.2) s (parsePrecise s) := by
  unfold parsePrecise
  dsimp only
  have h1 := takeSign_suffix s
  have h2 := spanDigits_suffix (takeSign s).2
  split
  · trivial
  · have h3 := takeFrac_suffix (spanDigits (takeSign s).2).2
    have h4 := (h3.trans h2).trans h1
    split
    · simp [GoodBy]
    · rename_i c cs he
      rw [he] at h4
      split
      · split
        · trivial
        · exact ((spanDigits_suffix _).trans (takeSign_suffix _)).trans (suffix_tail h4)
      · exact h4

theorem parseNumber_good (cfg : Cfg) (s : Bytes) : Good s (parseNumber cfg s) := by
  unfold parseNumber
  split
  · have h := parsePrecise_good s
    cases hp : parsePrecise s with
    | ok p => rw [hp] at h; exact h
    | err => trivial
    | _ => rw [hp] at h; exact h.elim
  · dsimp only
    have h1 := readSign_suffix s
    split
    · trivial
    · rename_i c cs he
      rw [he] at h1
      have h2 := (parseUnsigned_suffix 0 (c :: cs)).trans h1
      split
      · split
        · exact (parseDouble_good _ _ _ _).mono h2
        · split
          · split
            · exact h2
            · exact h2
          · exact h2
      · trivial

theorem readStr_good (cfg : Cfg) (s : Bytes) (d : Utf8.Dec) : Good s (readStr cfg d s) := by
  induction hn : s.length using Nat.strongRecOn generalizing s d with
  | _ n ih =>
    rw [readStr.eq_def]
    split
    · trivial
    · rename_i d c cs
      have lift : ∀ (d' : Utf8.Dec) (r : Bytes) (f : Bytes × Bytes → Bytes), r <:+ cs →
          Good (c :: cs) (readStr cfg d' r >>= fun t => pure (f t, t.2)) := by
        intro d' r f hr
        have hl := hr.length_le
        have hr' := hr.trans (List.suffix_cons c cs)
        have := ih r.length (by simp at hn; omega) r d' rfl
        exact (this.mono hr').bind (fun p hp _ => hp)
      split
      · trivial
      · split
        · simp [Good]
        · split
          · split
            · trivial
            · rename_i e es
              split
              · split
                · exact lift _ _ _ ⟨[e, _, _, _, _], rfl⟩
                · trivial
              · split
                · exact lift _ _ _ (List.suffix_cons _ _)
                · trivial
          · exact lift _ _ _ (List.suffix_refl _)

theorem checkKw_good (k s : Bytes) : GoodBy id s (checkKw k s) := by
  induction k generalizing s with
  | nil => simp [checkKw, GoodBy]
  | cons a k ih =>
    cases s with
    | nil => simp [checkKw, GoodBy]
    | cons c cs =>
      unfold checkKw
      split
      · have := ih cs
        cases h : checkKw k cs with
        | ok r => rw [h] at this; exact this.trans (List.suffix_cons _ _)
        | err => trivial
        | _ => rw [h] at this; exact this.elim
      · trivial

theorem kw_good {α : Type} (k s : Bytes) (v : α) : Good s (checkKw k s >>= fun t => pure (v, t)) := by
  have := checkKw_good k s
  cases h : checkKw k s with
  | ok r => rw [h] at this; exact this
  | err => trivial
  | _ => rw [h] at this; exact this.elim

theorem finishObj_good (cfg : Cfg) (ms : List (Bytes × JV)) (r : Bytes) : Good r (finishObj cfg ms r) := by
  unfold finishObj
  dsimp only
  split <;> simp [Good]

/-- Totality of the three mutual functions with enough fuel. -/
theorem parse_good (cfg : Cfg) (f : Nat) :
    (∀ s : Bytes, 2 * s.length + 1 ≤ f → Good s (parseV cfg f s)) ∧
    (∀ s : Bytes, 2 * s.length + 2 ≤ f → Good s (parseMembers cfg f s)) ∧
    (∀ s : Bytes, 2 * s.length + 2 ≤ f → Good s (parseItems cfg f s)) := by
  induction f with
  | zero => exact ⟨fun s h => by omega, fun s h => by omega, fun s h => by omega⟩
  | succ f ih =>
    obtain ⟨ihV, ihM, ihI⟩ := ih
    refine ⟨?_, ?_, ?_⟩
    · intro s hf
      unfold parseV
      have hw := skipWs_suffix s
      split
      · trivial
      · rename_i c r he
        rw [he] at hw
        have hr := suffix_tail hw
        have hl := suffix_len_lt hw
        have hw2 := skipWs_suffix r
        split
        · split
          · trivial
          · rename_i c' r' he'
            rw [he'] at hw2
            have h2 := hw2.trans hr
            have hl2 := hw2.length_le
            split
            · exact suffix_tail h2
            · refine ((ihM (c' :: r') (by omega)).mono h2).bind (fun p hp _ => ?_)
              exact (finishObj_good _ _ _).mono hp
        · split
          · split
            · trivial
            · rename_i c' r' he'
              rw [he'] at hw2
              have h2 := hw2.trans hr
              have hl2 := hw2.length_le
              split
              · exact suffix_tail h2
              · exact ((ihI (c' :: r') (by omega)).mono h2).bind (fun p hp _ => hp)
          · split
            · exact ((readStr_good _ _ _).mono hr).bind (fun p hp _ => hp)
            · split
              · exact (kw_good _ _ _).mono hw
              · split
                · exact (kw_good _ _ _).mono hw
                · split
                  · exact (kw_good _ _ _).mono hw
                  · split
                    · exact (parseNumber_good _ _).mono hw
                    · trivial
    · intro s hf
      cases s with
      | nil => simp [parseMembers, Good]
      | cons q r =>
        unfold parseMembers
        have hq : r <:+ q :: r := List.suffix_cons _ _
        split
        · refine ((readStr_good _ _ _).mono hq).bind (fun k hk _ => ?_)
          have hkr : k.2.length ≤ r.length + 1 := by simpa using hk.length_le
          have hw := skipWs_suffix k.2
          split
          · trivial
          · rename_i c r2 he
            rw [he] at hw
            have h2 := suffix_tail (hw.trans hk)
            have hl2 := suffix_len_lt (hw.trans hk)
            simp only [List.length_cons] at hl2 hf
            split
            · refine ((ihV r2 (by omega)).mono h2).bind (fun v hv _ => ?_)
              have hw4 := skipWs_suffix v.2
              split
              · trivial
              · rename_i c2 r4 he4
                rw [he4] at hw4
                have h4 := suffix_tail (hw4.trans hv)
                have hl4 := suffix_len_lt (hw4.trans hv)
                simp only [List.length_cons] at hl4
                split
                · exact h4
                · split
                  · have hw5 := skipWs_suffix r4
                    have hl5 := hw5.length_le
                    exact ((ihM _ (by omega)).mono (hw5.trans h4)).bind (fun p hp _ => hp)
                  · trivial
            · trivial
        · trivial
    · intro s hf
      unfold parseItems
      refine (ihV s (by omega)).bind (fun v hv _ => ?_)
      have hw4 := skipWs_suffix v.2
      split
      · trivial
      · rename_i c2 r4 he4
        rw [he4] at hw4
        have h4 := suffix_tail (hw4.trans hv)
        have hl4 := suffix_len_lt (hw4.trans hv)
        split
        · exact h4
        · split
          · exact ((ihI _ (by omega)).mono h4).bind (fun p hp _ => hp)
          · trivial

end Imt.Parser
