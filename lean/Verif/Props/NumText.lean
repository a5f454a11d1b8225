import Verif.Props.Parser
import Verif.Lemmas.ParserSound

/-!
# Numbers kept as text are read again as they were (C175)
-/

namespace Imt.Props
open Imt Imt.Parser Imt.Spec

theorem sign_again {sg : Bytes} (h : sg = [] ∨ sg = [0x2B] ∨ sg = [0x2D]) {ds : Bytes} (hne : ds ≠ []) (hd : ∀ c ∈ ds, IsDig c) (x : Bytes) :
    takeSign (sg ++ (ds ++ x)) = (sg, ds ++ x) := by
  rcases h with rfl | rfl | rfl
  · cases ds with
    | nil => exact absurd rfl hne
    | cons c ds =>
      have := hd c (by simp)
      unfold IsDig at this
      rw [List.nil_append, List.cons_append, takeSign, if_neg (by omega)]
  · rfl
  · rfl

theorem frac_again {f : Option Bytes} (h : ∀ x ∈ f, ∀ c ∈ x, IsDig c) {x : Bytes} (hx : StopDig x) (hdot : f = none → x.head? ≠ some 0x2E) :
    takeFrac (fracText f ++ x) = (fracText f, x) := by
  cases f with
  | none =>
    cases x with
    | nil => rfl
    | cons c x =>
      rw [fracText, List.nil_append, takeFrac, if_neg]
      intro e
      exact hdot rfl (by rw [e]; rfl)
  | some ds => rw [fracText, List.cons_append, takeFrac, if_pos rfl, spanDigits_run ds x (h ds rfl) hx]

theorem frac_stop (f : Option Bytes) {x : Bytes} (hx : StopDig x) : StopDig (fracText f ++ x) := by
  cases f with
  | none => exact hx
  | some ds =>
    intro c r e
    rw [fracText, List.cons_append] at e
    cases e
    rfl

/-- What the reader of numbers kept as text took, it takes again, whatever follows that does not continue a number. -/
theorem precise_again {s txt : Bytes} {fl : Bool} {r : Bytes} (h : parsePrecise s = .ok (txt, fl, r)) (rest : Bytes) (hr : StopNum rest) :
    parsePrecise (txt ++ rest) = .ok (txt, fl, rest) := by
  unfold parsePrecise at h
  dsimp only at h
  obtain ⟨-, s2⟩ := takeSign_inv s
  have d2 := spanDigits_dig (takeSign s).2
  generalize (takeSign s).1 = sg at h s2
  generalize hds : (spanDigits (takeSign s).2).1 = ds at h d2
  split at h
  · cases h
  · next hne =>
    obtain ⟨f, f1, f2, -⟩ := takeFrac_inv (spanDigits (takeSign s).2).2
    rw [f2] at h
    have hdot : rest.head? ≠ some 0x2E := by
      cases rest with
      | nil => simp
      | cons c x => simpa using (hr c x rfl).2.1
    have plain : parsePrecise (sg ++ ds ++ fracText f ++ rest) = .ok (sg ++ ds ++ fracText f, decide (fracText f ≠ []), rest) := by
      unfold parsePrecise
      dsimp only
      have e : sg ++ ds ++ fracText f ++ rest = sg ++ (ds ++ (fracText f ++ rest)) := by simp
      rw [e, sign_again s2 hne d2]
      dsimp only
      rw [spanDigits_run ds _ d2 (frac_stop f hr.dig)]
      dsimp only
      rw [if_neg hne, frac_again f1 hr.dig (fun _ => hdot)]
      dsimp only
      cases rest with
      | nil => rfl
      | cons c x =>
        have := hr c x rfl
        dsimp only
        rw [if_neg (by simp [this.2.2.1, this.2.2.2])]
    split at h
    · cases h; exact plain
    · next c cs he =>
      split at h
      · next hE =>
        split at h
        · cases h
        · next hne2 =>
          cases h
          obtain ⟨-, e2⟩ := takeSign_inv cs
          have g2 := spanDigits_dig (takeSign cs).2
          generalize (takeSign cs).1 = es at e2
          generalize (spanDigits (takeSign cs).2).1 = ed at hne2 g2
          have hcd : StopDig (c :: (es ++ (ed ++ rest))) := by
            intro x y e
            cases e
            rcases hE with rfl | rfl <;> rfl
          unfold parsePrecise
          dsimp only
          have e : sg ++ ds ++ fracText f ++ [c] ++ es ++ ed ++ rest = sg ++ (ds ++ (fracText f ++ (c :: (es ++ (ed ++ rest))))) := by simp
          rw [e, sign_again s2 hne d2]
          dsimp only
          rw [spanDigits_run ds _ d2 (frac_stop f hcd)]
          dsimp only
          rw [if_neg hne, frac_again f1 hcd (fun _ => by rcases hE with rfl | rfl <;> simp)]
          dsimp only
          rw [if_pos hE, sign_again e2 hne2 g2]
          dsimp only
          rw [spanDigits_run ed rest g2 hr.dig]
          dsimp only
          rw [if_neg hne2]
      · cases h; exact plain

/-- A number kept as text begins with a sign or a digit. -/
theorem precise_head {s txt : Bytes} {fl : Bool} {r : Bytes} (h : parsePrecise s = .ok (txt, fl, r)) :
    ∃ c x, txt = c :: x ∧ (isDigit c = true ∨ c = 0x2B ∨ c = 0x2D) := by
  unfold parsePrecise at h
  dsimp only at h
  obtain ⟨-, s2⟩ := takeSign_inv s
  have d2 := spanDigits_dig (takeSign s).2
  generalize (takeSign s).1 = sg at h s2
  generalize (spanDigits (takeSign s).2).1 = ds at h d2
  have key : ∀ y, ds ≠ [] → ∃ c x, sg ++ ds ++ y = c :: x ∧ (isDigit c = true ∨ c = 0x2B ∨ c = 0x2D) := by
    intro y hne
    rcases s2 with rfl | rfl | rfl
    · cases ds with
      | nil => exact absurd rfl hne
      | cons c ds => exact ⟨c, _, rfl, Or.inl ((isDigit_iff c).2 (d2 c (by simp)))⟩
    · exact ⟨0x2B, _, rfl, by simp⟩
    · exact ⟨0x2D, _, rfl, by simp⟩
  split at h
  · cases h
  · next hne =>
    split at h
    · cases h; exact key _ hne
    · split at h
      · split at h
        · cases h
        · cases h; simpa using key _ hne
      · cases h; exact key _ hne

/-- Where a number comes from: an infinity written as a string, or a number kept as text. -/
theorem number_from (cfg : Cfg) (hc : cfg.precise = true) (s : Bytes) (n : JNum) (r : Bytes) (h : parse cfg s = .ok (.num n, r)) :
    (∃ b, n = .inf b) ∨ ∃ s' txt fl, parsePrecise s' = .ok (txt, fl, r) ∧ n = numberFromStringRaw txt fl := by
  unfold parse at h
  rw [parseV.eq_def] at h
  dsimp only at h
  split at h
  · cases h
  · rename_i c r0 he
    split at h
    · split at h
      · cases h
      · split at h
        · cases h
        · obtain ⟨m, -, hfin⟩ := bind_ok_inv h
          unfold finishObj at hfin
          dsimp only at hfin
          split at hfin <;> cases hfin
    · split at h
      · split at h
        · cases h
        · split at h
          · cases h
          · obtain ⟨m, -, hfin⟩ := bind_ok_inv h
            cases hfin
      · split at h
        · obtain ⟨m, -, hfin⟩ := bind_ok_inv h
          left
          simp only [Res.pure_eq, Res.ok.injEq, Prod.mk.injEq] at hfin
          obtain ⟨hv, -⟩ := hfin
          unfold stringValue at hv
          split at hv
          · cases hv; exact ⟨_, rfl⟩
          · split at hv
            · cases hv; exact ⟨_, rfl⟩
            · cases hv
        · split at h
          · obtain ⟨m, -, hfin⟩ := bind_ok_inv h; cases hfin
          · split at h
            · obtain ⟨m, -, hfin⟩ := bind_ok_inv h; cases hfin
            · split at h
              · obtain ⟨m, -, hfin⟩ := bind_ok_inv h; cases hfin
              · split at h
                · right
                  unfold parseNumber at h
                  rw [if_pos hc] at h
                  obtain ⟨p, hp, hfin⟩ := bind_ok_inv h
                  cases hfin
                  exact ⟨_, p.1, p.2.1, hp, rfl⟩
                · cases h

theorem prec_back (cfg : Cfg) (hc : cfg.precise = true) {s txt : Bytes} {fl : Bool} {r : Bytes} (hp : parsePrecise s = .ok (txt, fl, r))
    (w : Bytes) (hw : Ws w) (rest : Bytes) (hr : StopNum rest) :
    parse cfg (w ++ (txt ++ rest)) = .ok (.num (numberFromStringRaw txt fl), rest) := by
  obtain ⟨c, x, hx, hcx⟩ := precise_head hp
  have hs : isSpace c = false := by
    rcases hcx with h | h | h
    · have := (isDigit_iff c).1 h
      unfold IsDig at this
      unfold isSpace
      simp
      omega
    · subst h; decide
    · subst h; decide
  have ha := precise_again hp rest hr
  unfold parse
  rw [← parseV_skip, skipWs_ws _ _ hw, parseV_skip]
  rw [hx] at ha ⊢
  rw [List.cons_append] at ha ⊢
  rw [parseV_head _ _ _ _ hs]
  have hd : c ≠ 0x7B ∧ c ≠ 0x5B ∧ c ≠ 0x22 ∧ c ≠ 0x74 ∧ c ≠ 0x66 ∧ c ≠ 0x6E := by
    rcases hcx with h | h | h
    · have := (isDigit_iff c).1 h
      unfold IsDig at this
      omega
    · omega
    · omega
  rw [if_neg hd.1, if_neg hd.2.1, if_neg hd.2.2.1, if_neg hd.2.2.2.1, if_neg hd.2.2.2.2.1, if_neg hd.2.2.2.2.2,
    if_pos (by rcases hcx with h | h | h <;> simp [h])]
  unfold parseNumber
  rw [if_pos hc, ha]
  rfl

/-- **C175.** With numbers kept as text, a number read from any text, also one that is no JSON number (`+1`, `007`, `1.`), is written as
a text which, after any white space and before anything that does not continue a number, is read as the very same number: the same text,
classified the same way, and nothing of what follows is taken. -/
theorem C175_number (cfg : Cfg) (hc : cfg.precise = true) (s : Bytes) (n : JNum) (r : Bytes) (h : parse cfg s = .ok (.num n, r))
    (hn : ∀ b, n ≠ .inf b) (u8 : Bool) (f : Decimal → Bytes) (w : Bytes) (hw : Ws w) (rest : Bytes) (hr : StopNum rest) :
    ∃ t, Ser.stringify u8 f (.num n) = .ok t ∧ parse cfg (w ++ (t ++ rest)) = .ok (.num n, rest) := by
  rcases number_from cfg hc s n r h with ⟨b, e⟩ | ⟨s', txt, fl, hp, e⟩
  · exact absurd e (hn b)
  · obtain ⟨cls, hcls⟩ := numberFromStringRaw_prec txt fl
    refine ⟨txt, by rw [e, hcls]; rfl, ?_⟩
    rw [e]
    exact prec_back cfg hc hp w hw rest hr

example : parse { precise := true } (ascii " +007.e2x") = .ok (.num (.prec (ascii "+007.e2") .dbl), ascii "x") := by decide +kernel
example : parse { precise := true } (ascii " +007.,") = .ok (.num (.prec (ascii "+007.") .dbl), ascii ",") ∧ StopNum (ascii "]") ∧ Ws [0x20] := by
  refine ⟨by decide +kernel, ?_, by unfold Ws; decide⟩
  intro c r h
  cases h
  decide

/-- **C175 needs what follows not to continue the number**: the text `1` read from `1 `, written before `.5`, is read as `1.5`. -/
theorem C175_needs_stop : parse { precise := true } (ascii "1 ") = .ok (.num (.prec (ascii "1") (.unat 1)), ascii " ") ∧
    parse { precise := true } (ascii "1" ++ ascii ".5") = .ok (.num (.prec (ascii "1.5") .dbl), []) := by
  decide +kernel

end Imt.Props
