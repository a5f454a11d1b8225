import Verif.Props.ComprTexts
/-!
# Compressed texts cut short (C172)
-/
namespace Imt.Props
open Imt Imt.Compr

/-- The decompressor with another input. -/
def withIn (i : Bytes) (d : Dec) : Dec := { d with inp := i }

theorem daddCode_length {s r : Dicts} {i : Nat} {pt : Option Nat} (h : daddCode s i pt = .ok r) : r.1.length = s.1.length := by
  unfold daddCode at h
  split at h
  · cases h
  · dsimp only at h
    split at h
    · split at h
      · cases h
      · cases h; simp
    · cases h; rfl

theorem translate_length : ∀ (f : Nat) (s : Dicts) (p : Nat) (r : Dicts × Option Nat), translate f s p = .ok r → r.1.1.length = s.1.length := by
  intro f
  induction f with
  | zero =>
    intro s p r h
    rw [translate.eq_def] at h
    dsimp only at h
    split at h
    · cases h; rfl
    · split at h
      · cases h
      · split at h
        · cases h; rfl
        · cases h
  | succ f ih =>
    intro s p r h
    rw [translate.eq_def] at h
    dsimp only at h
    split at h
    · cases h; rfl
    · split at h
      · cases h
      · rename_i d _
        split at h
        · cases h; rfl
        · cases h1 : translate f s d.prev with
          | ok a =>
            rw [h1, Res.bind_ok] at h
            obtain ⟨s1, p1⟩ := a
            dsimp only at h
            cases h2 : daddCode s1 (p - firstCode) p1 with
            | ok b =>
              rw [h2, Res.bind_ok] at h
              cases h
              rw [daddCode_length h2]
              exact ih _ _ _ h1
            | _ => rw [h2] at h; cases h
          | _ => rw [h1] at h; cases h

theorem expandLoop_length : ∀ (f : Nat) (s : Dicts) (st : List Nat) (p : Nat) (r : Dicts × List Nat × Nat), expandLoop f s st p = .ok r →
    r.1.1.length = s.1.length := by
  intro f
  induction f with
  | zero =>
    intro s st p r h
    rw [expandLoop.eq_def] at h
    dsimp only at h
    split at h
    · cases h; rfl
    · split at h <;> cases h
  | succ f ih =>
    intro s st p r h
    rw [expandLoop.eq_def] at h
    dsimp only at h
    split at h
    · cases h; rfl
    · split at h
      · cases h
      · rename_i d _
        split at h
        · exact ih _ _ _ _ h
        · cases h1 : translate (s.1.length + 1) s d.prev with
          | ok a =>
            rw [h1, Res.bind_ok] at h
            obtain ⟨s1, p1⟩ := a
            dsimp only at h
            cases h2 : daddCode s1 (p - firstCode) p1 with
            | ok b =>
              rw [h2, Res.bind_ok] at h
              rw [ih _ _ _ _ h, daddCode_length h2]
              exact translate_length _ _ _ _ h1
            | _ => rw [h2] at h; cases h
          | _ => rw [h1] at h; cases h

theorem register_length {s r : Dicts} {prev : Option Nat} {first : Nat} {used : Bool} (h : register s prev first used = .ok r) :
    r.1.length ≤ s.1.length + 1 := by
  unfold register at h
  split at h
  · cases h; omega
  · dsimp only at h
    split at h
    · rename_i q _
      cases h1 : translate ((s.1 ++ [({ prev := q, ch := first } : DInfo)]).length + 1) (s.1 ++ [{ prev := q, ch := first }], s.2) (s.1.length + firstCode) with
      | ok a =>
        rw [h1, Res.bind_ok] at h
        cases h
        rw [translate_length _ _ _ _ h1]
        simp
      | _ => rw [h1] at h; cases h
    · cases h; simp

/-- Expansion of a code does not look at the input. -/
theorem expand_in (i : Bytes) (d : Dec) (cc : Nat) : expand (withIn i d) cc = (expand d cc >>= fun r => .ok (r.1, withIn i r.2)) := by
  unfold expand withIn
  dsimp only
  split
  · cases d.firstChar with
    | none => rfl
    | some f =>
      cases hq : d.prev with
      | none => rfl
      | some q =>
        dsimp only
        cases expandLoop (d.db.length + 1) (d.db, d.ndb) [f] q with
        | ok a =>
          obtain ⟨s, st, p⟩ := a
          simp only [Res.bind_ok]
          cases register s (some q) p true <;> rfl
        | _ => rfl
  · split
    · rfl
    · cases expandLoop (d.db.length + 1) (d.db, d.ndb) [] cc with
      | ok a =>
        obtain ⟨s, st, p⟩ := a
        simp only [Res.bind_ok]
        cases register s d.prev p false <;> rfl
      | _ => rfl

theorem expand_length {d : Dec} {cc : Nat} {r : Nat × Dec} (h : expand d cc = .ok r) : r.2.db.length ≤ d.db.length + 1 := by
  unfold expand at h
  dsimp only at h
  split at h
  · cases h1 : d.firstChar with
    | none => rw [h1] at h; cases h
    | some f =>
      cases hq : d.prev with
      | none => rw [h1, hq] at h; cases h
      | some q =>
        rw [h1, hq] at h
        dsimp only at h
        cases h2 : expandLoop (d.db.length + 1) (d.db, d.ndb) [f] q with
        | ok a =>
          obtain ⟨s, st, p⟩ := a
          rw [h2, Res.bind_ok] at h
          dsimp only at h
          cases h3 : register s (some q) p true with
          | ok b =>
            rw [h3, Res.bind_ok] at h
            cases h
            have e1 : s.1.length = d.db.length := expandLoop_length _ _ _ _ _ h2
            have := register_length h3
            dsimp only
            omega
          | _ => rw [h3] at h; cases h
        | _ => rw [h2] at h; cases h
  · split at h
    · cases h
    · cases h2 : expandLoop (d.db.length + 1) (d.db, d.ndb) [] cc with
      | ok a =>
        obtain ⟨s, st, p⟩ := a
        rw [h2, Res.bind_ok] at h
        dsimp only at h
        cases h3 : register s d.prev p false with
        | ok b =>
          rw [h3, Res.bind_ok] at h
          cases h
          have e1 : s.1.length = d.db.length := expandLoop_length _ _ _ _ _ h2
          have := register_length h3
          dsimp only
          omega
        | _ => rw [h3] at h; cases h
      | _ => rw [h2] at h; cases h

/-- The dictionary stays within `B` entries while the codes `cs` are read, or it does not matter. -/
def Within (F : Prop) (B : Nat) (d : Dec) (cs : List Nat) : Prop := F ∨ (optimizeCode ∉ cs ∧ d.db.length + cs.length ≤ B)

/-- The decompressor of the codes `cs` and `y` and the one of the same codes and `z` do the same until one needs what follows the codes. -/
theorem step_cut (F : Prop) (B : Nat) (y z : Bytes) : ∀ (cs : List Nat) (d : Dec) (f f' : Nat), (∀ c ∈ cs, c ≤ flushCode) →
    Within F B d cs → (wrs cs ++ z).length < f' → ∀ r, decompress f (withIn (wrs cs ++ y) d) = .ok r →
    (∃ c d1 cs1, r = (c, withIn (wrs cs1 ++ y) d1) ∧ decompress f' (withIn (wrs cs ++ z) d) = .ok (c, withIn (wrs cs1 ++ z) d1) ∧
      cs1 <:+ cs ∧ Within F B d1 cs1) ∨
    (∃ d1 f1, z.length < f1 ∧ decompress f' (withIn (wrs cs ++ z) d) = decompress f1 (withIn z d1) ∧ d1.ready = [] ∧ Within F B d1 []) := by
  intro cs
  induction cs with
  | nil =>
    intro d f f' _ hw hf' r h
    cases hr : d.ready with
    | cons c l =>
      left
      refine ⟨c, { d with ready := l }, [], ?_, ?_, List.suffix_refl _, hw⟩
      · rw [decompress.eq_def] at h
        dsimp only [withIn] at h
        rw [hr] at h
        dsimp only at h
        exact (Res.ok.inj h).symm
      · rw [decompress.eq_def]
        dsimp only [withIn]
        rw [hr]
    | nil => exact Or.inr ⟨d, f', hf', rfl, hr, hw⟩
  | cons c0 cs ih =>
    intro d f f' hc hw hf' r h
    cases hr : d.ready with
    | cons c l =>
      left
      refine ⟨c, { d with ready := l }, c0 :: cs, ?_, ?_, List.suffix_refl _, hw⟩
      · rw [decompress.eq_def] at h
        dsimp only [withIn] at h
        rw [hr] at h
        dsimp only at h
        exact (Res.ok.inj h).symm
      · rw [decompress.eq_def]
        dsimp only [withIn]
        rw [hr]
    | nil =>
      obtain ⟨d, rfl⟩ : ∃ d0 : Dec, d = { d0 with ready := [] } := ⟨d, by cases d; cases hr; rfl⟩
      have rc : ∀ t, readCode (wrs (c0 :: cs) ++ t) = (c0, wrs cs ++ t) := by
        intro t
        rw [wrs_cons, List.append_assoc]
        exact readCode_wr (hc c0 (by simp)) _
      have hlen : (wrs cs ++ z).length + 1 ≤ (wrs (c0 :: cs) ++ z).length := by
        have : 1 ≤ (wr c0).length := by unfold wr; split <;> simp
        rw [wrs_cons, List.append_assoc, List.length_append (as := wr c0)]
        omega
      have hc' : ∀ c ∈ cs, c ≤ flushCode := fun c h => hc c (by simp [h])
      obtain ⟨g', rfl⟩ : ∃ g', f' = g' + 1 := ⟨f' - 1, by omega⟩
      have e' := decompress_nil (fuel := g') (d := withIn (wrs (c0 :: cs) ++ z) { d with ready := [] }) rfl
      have hi : (withIn (wrs (c0 :: cs) ++ z) { d with ready := [] }).inp = wrs (c0 :: cs) ++ z := rfl
      rw [hi, rc] at e'
      dsimp only [withIn] at e'
      have e := h
      rw [decompress.eq_def] at e
      dsimp only [withIn] at e
      rw [rc] at e
      dsimp only at e
      by_cases hfl : c0 = flushCode
      · rw [if_pos hfl] at e e'
        left
        refine ⟨255, { d with db := [], prev := none, ready := [] }, cs, (Res.ok.inj e).symm, e', List.suffix_cons _ _, ?_⟩
        rcases hw with hF | ⟨h1, h2⟩
        · exact Or.inl hF
        · refine Or.inr ⟨fun hm => h1 (by simp [hm]), ?_⟩
          simp only [List.length_cons, List.length_nil] at h2 ⊢
          omega
      · rw [if_neg hfl] at e e'
        by_cases hop : c0 = optimizeCode
        · rw [if_pos hop] at e e'
          have hF : F := by
            rcases hw with hF | ⟨h1, _⟩
            · exact hF
            · exact absurd (by simp [hop]) h1
          cases f with
          | zero => cases e
          | succ g =>
            dsimp only at e
            rcases ih { d with db := d.ndb, ndb := [], prev := none, ready := [] } g g' hc' (Or.inl hF) (by omega) r e with
              ⟨c, d1, cs1, a1, a2, a3, a4⟩ | ⟨d1, f1, a1, a2, a3, a4⟩
            · exact Or.inl ⟨c, d1, cs1, a1, e'.trans a2, a3.trans (List.suffix_cons _ _), a4⟩
            · exact Or.inr ⟨d1, f1, a1, e'.trans a2, a3, a4⟩
        · rw [if_neg hop] at e e'
          left
          have e1 : expand (withIn (wrs cs ++ y) { d with ready := [] }) c0 = .ok r := e
          have e2 : decompress (g' + 1) (withIn (wrs (c0 :: cs) ++ z) { d with ready := [] }) = expand (withIn (wrs cs ++ z) { d with ready := [] }) c0 := e'
          rw [expand_in] at e1 e2
          cases hx : expand { d with ready := [] } c0 with
          | ok a =>
            rw [hx, Res.bind_ok] at e1 e2
            refine ⟨a.1, a.2, cs, (Res.ok.inj e1).symm, e2, List.suffix_cons _ _, ?_⟩
            rcases hw with hF | ⟨h1, h2⟩
            · exact Or.inl hF
            · refine Or.inr ⟨fun hm => h1 (by simp [hm]), ?_⟩
              have := expand_length hx
              dsimp only at this h2
              simp only [List.length_cons] at h2
              omega
          | _ => rw [hx] at e1; cases e1

/-- What follows the codes ends the text (or, if `E`, may be an error). -/
def Ends (E F : Prop) (B : Nat) (z : Bytes) : Prop := ∀ (d : Dec) (f : Nat), z.length < f → d.ready = [] → Within F B d [] →
  (∃ d', decompress f (withIn z d) = .ok (255, d')) ∨ (E ∧ decompress f (withIn z d) = .err)

theorem decomp_cut {E F : Prop} {B : Nat} {z : Bytes} (hz : Ends E F B z) (y : Bytes) (cs : List Nat) (d : Dec)
    (hc : ∀ c ∈ cs, c ≤ flushCode) (hw : Within F B d cs) (r : Nat × Dec) (h : decomp (withIn (wrs cs ++ y) d) = .ok r) :
    (∃ c d1 cs1, r = (c, withIn (wrs cs1 ++ y) d1) ∧ decomp (withIn (wrs cs ++ z) d) = .ok (c, withIn (wrs cs1 ++ z) d1) ∧
      (∀ c ∈ cs1, c ≤ flushCode) ∧ Within F B d1 cs1) ∨
    (∃ d', decomp (withIn (wrs cs ++ z) d) = .ok (255, d')) ∨ (E ∧ decomp (withIn (wrs cs ++ z) d) = .err) := by
  unfold decomp at h ⊢
  rcases step_cut F B y z cs d _ ((withIn (wrs cs ++ z) d).inp.length + 1) hc hw (Nat.lt_succ_self _) r h with
    ⟨c, d1, cs1, a1, a2, a3, a4⟩ | ⟨d1, f1, a1, a2, a3, a4⟩
  · exact Or.inl ⟨c, d1, cs1, a1, a2, fun c hm => hc c (a3.subset hm), a4⟩
  · rw [a2]
    exact Or.inr (hz d1 f1 a1 a3 a4)

theorem lead_cut {E F : Prop} {B : Nat} {z : Bytes} (hz : Ends E F B z) (y : Bytes) (cs : List Nat) (d : Dec) (n m : Nat) (hm : 255 ||| m = 255)
    (hc : ∀ c ∈ cs, c ≤ flushCode) (hw : Within F B d cs) (r : Nat × Dec) (h : lead (withIn (wrs cs ++ y) d) n m = .ok r) :
    (∃ c d1 cs1, r = (c, withIn (wrs cs1 ++ y) d1) ∧ lead (withIn (wrs cs ++ z) d) n m = .ok (c, withIn (wrs cs1 ++ z) d1) ∧
      (∀ c ∈ cs1, c ≤ flushCode) ∧ Within F B d1 cs1) ∨
    (∃ d', lead (withIn (wrs cs ++ z) d) n m = .ok (255, d')) ∨ (E ∧ lead (withIn (wrs cs ++ z) d) n m = .err) := by
  have e : ∀ i, lead (withIn i d) n m = (decomp (withIn i { d with utf8len := n }) >>= fun r => .ok (r.1 ||| m, r.2)) := fun i => rfl
  rw [e] at h ⊢
  cases hx : decomp (withIn (wrs cs ++ y) { d with utf8len := n }) with
  | ok a =>
    rw [hx, Res.bind_ok] at h
    rcases decomp_cut hz y cs { d with utf8len := n } hc hw a hx with ⟨c, d1, cs1, a1, a2, a3, a4⟩ | ⟨d', a1⟩ | ⟨hE, a1⟩
    · rw [a1] at h
      rw [a2, Res.bind_ok]
      exact Or.inl ⟨c ||| m, d1, cs1, (Res.ok.inj h).symm, rfl, a3, a4⟩
    · rw [a1, Res.bind_ok, hm]
      exact Or.inr (Or.inl ⟨d', rfl⟩)
    · rw [a1, Res.bind_err]
      exact Or.inr (Or.inr ⟨hE, rfl⟩)
  | _ => rw [hx] at h; cases h

theorem get_cut {E F : Prop} {B : Nat} {z : Bytes} (hz : Ends E F B z) (y : Bytes) (cs : List Nat) (d : Dec)
    (hc : ∀ c ∈ cs, c ≤ flushCode) (hw : Within F B d cs) (r : Nat × Dec) (h : Compr.get (withIn (wrs cs ++ y) d) = .ok r) :
    (∃ c d1 cs1, r = (c, withIn (wrs cs1 ++ y) d1) ∧ Compr.get (withIn (wrs cs ++ z) d) = .ok (c, withIn (wrs cs1 ++ z) d1) ∧
      (∀ c ∈ cs1, c ≤ flushCode) ∧ Within F B d1 cs1) ∨
    (∃ d', Compr.get (withIn (wrs cs ++ z) d) = .ok (255, d')) ∨ (E ∧ Compr.get (withIn (wrs cs ++ z) d) = .err) := by
  unfold Compr.get at h ⊢
  cases hx : decomp (withIn (wrs cs ++ y) d) with
  | ok a =>
    rw [hx, Res.bind_ok] at h
    rcases decomp_cut hz y cs d hc hw a hx with ⟨c, d1, cs1, a1, a2, a3, a4⟩ | ⟨d', a1⟩ | ⟨hE, a1⟩
    · rw [a1] at h
      rw [a2, Res.bind_ok]
      dsimp only at h ⊢
      have eu : ∀ i, (withIn i d1).utf8len = d1.utf8len := fun _ => rfl
      rw [eu] at h ⊢
      by_cases hu : d1.utf8len ≠ 0
      · rw [if_pos hu] at h ⊢
        exact Or.inl ⟨_, { d1 with utf8len := d1.utf8len - 1 }, cs1, (Res.ok.inj h).symm, rfl, a3, a4⟩
      · rw [if_neg hu] at h ⊢
        by_cases h0 : c = 255
        · rw [if_pos h0] at h ⊢
          exact Or.inl ⟨255, d1, cs1, (Res.ok.inj h).symm, rfl, a3, a4⟩
        · rw [if_neg h0] at h ⊢
          by_cases h1 : c = 1
          · rw [if_pos h1] at h ⊢
            exact lead_cut hz y cs1 d1 1 0xC0 (by decide) a3 a4 r h
          · rw [if_neg h1] at h ⊢
            by_cases h2 : c = 2
            · rw [if_pos h2] at h ⊢
              exact lead_cut hz y cs1 d1 2 0xE0 (by decide) a3 a4 r h
            · rw [if_neg h2] at h ⊢
              by_cases h3 : c = 3
              · rw [if_pos h3] at h ⊢
                exact lead_cut hz y cs1 d1 3 0xF0 (by decide) a3 a4 r h
              · rw [if_neg h3] at h ⊢
                by_cases h4 : c = 4
                · rw [if_pos h4] at h ⊢
                  exact lead_cut hz y cs1 d1 4 0xF8 (by decide) a3 a4 r h
                · rw [if_neg h4] at h ⊢
                  exact Or.inl ⟨_, d1, cs1, (Res.ok.inj h).symm, rfl, a3, a4⟩
    · rw [a1, Res.bind_ok]
      dsimp only
      split
      · exact Or.inr (Or.inl ⟨_, rfl⟩)
      · rw [if_pos rfl]
        exact Or.inr (Or.inl ⟨_, rfl⟩)
    · rw [a1, Res.bind_err]
      exact Or.inr (Or.inr ⟨hE, rfl⟩)
  | _ => rw [hx] at h; cases h

theorem getAll_cut {E F : Prop} {B : Nat} {z : Bytes} (hz : Ends E F B z) (y : Bytes) : ∀ (n : Nat) (cs : List Nat) (d : Dec),
    (∀ c ∈ cs, c ≤ flushCode) → Within F B d cs → ∀ t e, getAll n (withIn (wrs cs ++ y) d) = .ok (t, e) →
    (∃ t' e', getAll n (withIn (wrs cs ++ z) d) = .ok (t', e') ∧ t' <+: t) ∨ (E ∧ getAll n (withIn (wrs cs ++ z) d) = .err) := by
  intro n
  induction n with
  | zero => intro cs d _ _ t e h; cases h
  | succ n ih =>
    intro cs d hc hw t e h
    rw [getAll.eq_def] at h ⊢
    dsimp only at h ⊢
    cases hx : Compr.get (withIn (wrs cs ++ y) d) with
    | ok a =>
      rw [hx, Res.bind_ok] at h
      rcases get_cut hz y cs d hc hw a hx with ⟨c, d1, cs1, a1, a2, a3, a4⟩ | ⟨d', a1⟩ | ⟨hE, a1⟩
      · rw [a1] at h
        rw [a2, Res.bind_ok]
        dsimp only at h ⊢
        by_cases h0 : c = 255
        · rw [if_pos h0] at h ⊢
          cases h
          exact Or.inl ⟨[], _, rfl, List.prefix_refl _⟩
        · rw [if_neg h0] at h ⊢
          cases hy : getAll n (withIn (wrs cs1 ++ y) d1) with
          | ok b =>
            obtain ⟨t1, e1⟩ := b
            rw [hy, Res.bind_ok] at h
            cases h
            rcases ih cs1 d1 a3 a4 t1 e1 hy with ⟨t', e', b1, b2⟩ | ⟨hE, b1⟩
            · rw [b1, Res.bind_ok]
              exact Or.inl ⟨c :: t', e', rfl, List.prefix_cons_iff.2 (Or.inr ⟨t', rfl, b2⟩)⟩
            · rw [b1, Res.bind_err]
              exact Or.inr ⟨hE, rfl⟩
          | _ => rw [hy] at h; cases h
      · rw [a1, Res.bind_ok]
        dsimp only
        rw [if_pos rfl]
        exact Or.inl ⟨[], _, rfl, List.nil_prefix⟩
      · rw [a1, Res.bind_err]
        exact Or.inr ⟨hE, rfl⟩
    | _ => rw [hx] at h; cases h

theorem ends_nil (B : Nat) : Ends False True B [] := by
  intro d f hf hr _
  left
  obtain ⟨g, rfl⟩ : ∃ g, f = g + 1 := ⟨f - 1, by simp at hf; omega⟩
  exact ⟨_, by rw [decompress_nil (d := withIn [] d) hr, show (withIn [] d).inp = [] from rfl, readCode_nil, if_pos rfl]⟩

theorem ends_one (b : Nat) (hb : 128 ≤ b) (hb' : b < 256) : Ends True False 280 [b] := by
  intro d f hf hr hw
  have hw : d.db.length ≤ 280 := by
    rcases hw with h | h
    · exact h.elim
    · simpa using h.2
  obtain ⟨g, rfl⟩ : ∃ g, f = g + 1 := ⟨f - 1, by simp at hf; omega⟩
  have hm : ∀ b, b < 256 → 128 ≤ b → b &&& 0x7F = b - 128 ∧ b &&& extCodeMask = extCodeMask := by decide +kernel
  have hrc : readCode [b] = ((b - 128) * 256 + 383, []) := by
    unfold readCode nextByte
    dsimp only
    rw [if_neg (by simp [(hm b hb' hb).2]), (hm b hb' hb).1, show extCodeMask = 128 by decide]
  rw [decompress_nil (d := withIn [b] d) hr, show (withIn [b] d).inp = [b] from rfl, hrc]
  dsimp only
  by_cases hfl : (b - 128) * 256 + 383 = flushCode
  · rw [if_pos hfl]
    exact Or.inl ⟨_, rfl⟩
  · have ho : (b - 128) * 256 + 383 ≠ optimizeCode := by
      have : optimizeCode = 32894 := by decide
      omega
    rw [if_neg hfl, if_neg ho]
    refine Or.inr ⟨trivial, ?_⟩
    unfold expand
    have e : firstCode = 102 := by decide
    dsimp only [withIn]
    rw [if_neg (by omega), if_pos (by omega)]

/-! ### The codes of a text -/

/-- What the compressor has written after `m` symbols: codes `cs`; while there is room for codes, no more of them than symbols and none
of them asks for the other dictionary. -/
structure Codes (s : Comp) (m : Nat) (cs : List Nat) : Prop where
  out : s.out = wrs cs
  le : ∀ c ∈ cs, c ≤ flushCode
  last : ∀ q, s.lastSeq = some q → q < maxCode
  small : firstCode + m < maxCode → optimizeCode ∉ cs ∧ cs.length ≤ m ∧ s.nextCode ≤ firstCode + m ∧ ∀ e ∈ s.db, e.2.next < s.nextCode

theorem wrs_append (a b : List Nat) : wrs (a ++ b) = wrs a ++ wrs b := by simp [wrs]

theorem wrs_one (c : Nat) : wrs [c] = wr c := by simp [wrs]

theorem cinsert_next {db : SeqDB} {k : Nat × Nat} {i : Info} {n : Nat} (h : ∀ e ∈ db, e.2.next < n) (hi : i.next < n) :
    ∀ e ∈ cinsert db k i, e.2.next < n := by
  unfold cinsert
  split
  · exact h
  · intro e he
    rcases List.mem_append.1 he with he | he
    · exact h e he
    · rw [List.mem_singleton.1 he]; exact hi

theorem codes_sym {s s' : Comp} {m : Nat} {cs : List Nat} (h : Codes s m cs) {c : Nat} (hs : compressSym s c = .ok s') :
    ∃ cs', Codes s' (m + 1) cs' := by
  have k1 : firstCode < maxCode := by decide
  have k2 : maxCode < optimizeCode := by decide
  have k3 : optimizeCode < flushCode := by decide
  unfold compressSym at hs
  split at hs
  · cases hs
  · rename_i hcc
    cases hl : s.lastSeq with
    | none =>
      rw [hl] at hs
      cases hs
      refine ⟨cs, h.out, h.le, fun q hq => by cases hq; omega, fun hm => ?_⟩
      obtain ⟨a1, a2, a3, a4⟩ := h.small (by omega)
      exact ⟨a1, by omega, by dsimp only; omega, a4⟩
    | some q =>
      have hq := h.last q hl
      rw [hl] at hs
      dsimp only at hs
      cases hf : cfind s.db (q, c) with
      | none =>
        rw [hf] at hs
        cases hs
        refine ⟨cs ++ [q], ?_, ?_, fun q hq => by cases hq; omega, fun hm => ?_⟩
        · rw [wrs_append, wrs_one, ← h.out]
          rfl
        · intro x hx
          rcases List.mem_append.1 hx with hx | hx
          · exact h.le x hx
          · rw [List.mem_singleton.1 hx]; omega
        · obtain ⟨a1, a2, a3, a4⟩ := h.small (by omega)
          refine ⟨?_, by simp; omega, by dsimp only [Comp.write]; omega, ?_⟩
          · intro hx
            rcases List.mem_append.1 hx with hx | hx
            · exact a1 hx
            · have := List.mem_singleton.1 hx; omega
          · exact cinsert_next (fun e he => Nat.lt_succ_of_lt (a4 e he)) (Nat.lt_succ_self _)
      | some i =>
        rw [hf] at hs
        dsimp only at hs
        split at hs
        · rename_i hi
          cases hs
          refine ⟨cs ++ [q, optimizeCode], ?_, ?_, fun q hq => by cases hq; omega, fun hm => ?_⟩
          · rw [wrs_append, ← h.out, wrs_cons, wrs_one, ← List.append_assoc]
            rfl
          · intro x hx
            rcases List.mem_append.1 hx with hx | hx
            · exact h.le x hx
            · rcases List.mem_cons.1 hx with hx | hx
              · omega
              · rw [List.mem_singleton.1 hx]; omega
          · obtain ⟨a1, a2, a3, a4⟩ := h.small (by omega)
            have := a4 _ (cfind_mem hf)
            dsimp only at this
            omega
        · rename_i hi
          have had : advance s (q, c) i = ((if i.used then .ok s else addCode s (q, c)) >>= fun s =>
              .ok { s with lastSeq := some i.next, lastNew := (cfind s.db (q, c)).bind (·.new) }) := by
            unfold advance
            dsimp only
            split <;> rfl
          rw [had] at hs
          have key : ∀ s1 : Comp, (if i.used then .ok s else addCode s (q, c)) = Res.ok s1 →
              s1.out = s.out ∧ s1.nextCode = s.nextCode ∧ (∀ n, (∀ e ∈ s.db, e.2.next < n) → ∀ e ∈ s1.db, e.2.next < n) := by
            intro s1 h1
            split at h1
            · cases h1; exact ⟨rfl, rfl, fun _ h => h⟩
            · unfold addCode at h1
              split at h1
              · split at h1
                · cases h1
                · cases h1
                  refine ⟨rfl, rfl, fun n hn e he => ?_⟩
                  obtain ⟨e0, he0, rfl⟩ := List.mem_map.1 he
                  have := hn e0 he0
                  split <;> exact this
              · cases h1; exact ⟨rfl, rfl, fun _ h => h⟩
          cases h1 : (if i.used then .ok s else addCode s (q, c) : Res Comp) with
          | ok s1 =>
            rw [h1, Res.bind_ok] at hs
            obtain ⟨b1, b2, b3⟩ := key s1 h1
            cases hs
            refine ⟨cs, b1.trans h.out, h.le, fun q hq => by cases hq; omega, fun hm => ?_⟩
            obtain ⟨a1, a2, a3, a4⟩ := h.small (by omega)
            refine ⟨a1, by omega, by dsimp only; omega, ?_⟩
            dsimp only
            rw [b2]
            exact b3 _ a4
          | _ => rw [h1] at hs; cases hs

theorem Codes.mono {s : Comp} {m m' : Nat} {cs : List Nat} (h : Codes s m cs) (hm : m ≤ m') : Codes s m' cs :=
  ⟨h.out, h.le, h.last, fun hs => by
    obtain ⟨a1, a2, a3, a4⟩ := h.small (by omega)
    exact ⟨a1, by omega, by omega, a4⟩⟩

theorem Codes.utf {s : Comp} {m : Nat} {cs : List Nat} (h : Codes s m cs) (n : Nat) : Codes { s with utf8len := n } m cs :=
  ⟨h.out, h.le, h.last, h.small⟩

theorem codes_put {s s' : Comp} {m : Nat} {cs : List Nat} (h : Codes s m cs) {c : Nat} (hs : put s c = .ok s') :
    ∃ cs', Codes s' (m + 2) cs' := by
  have two : ∀ a b n, compress2 s a b n = .ok s' → ∃ cs', Codes s' (m + 2) cs' := by
    intro a b n h2
    unfold compress2 at h2
    cases h3 : compressSym s a with
    | ok s1 =>
      rw [h3, Res.bind_ok] at h2
      obtain ⟨cs1, c1⟩ := codes_sym h h3
      cases h4 : compressSym s1 b with
      | ok s2 =>
        rw [h4, Res.bind_ok] at h2
        obtain ⟨cs2, c2⟩ := codes_sym c1 h4
        cases h2
        exact ⟨cs2, c2.utf n⟩
      | _ => rw [h4] at h2; cases h2
    | _ => rw [h3] at h2; cases h2
  have one : ∀ (s0 : Comp) a, Codes s0 m cs → compressSym s0 a = .ok s' → ∃ cs', Codes s' (m + 2) cs' := by
    intro s0 a h0 h2
    obtain ⟨cs1, c1⟩ := codes_sym h0 h2
    exact ⟨cs1, c1.mono (by omega)⟩
  unfold put at hs
  repeat' split at hs
  all_goals first
    | exact two _ _ _ hs
    | exact one _ _ (h.utf _) hs
    | exact one _ _ h hs
    | cases hs

theorem codes_putAll : ∀ (l : Bytes) {s s' : Comp} {m : Nat} {cs : List Nat}, Codes s m cs → putAll s l = .ok s' →
    ∃ cs', Codes s' (m + 2 * l.length) cs' := by
  intro l
  induction l with
  | nil => intro s s' m cs h hs; cases hs; exact ⟨cs, h⟩
  | cons c l ih =>
    intro s s' m cs h hs
    rw [putAll] at hs
    cases h1 : put s c with
    | ok s1 =>
      rw [h1, Res.bind_ok] at hs
      obtain ⟨cs1, c1⟩ := codes_put h h1
      obtain ⟨cs2, c2⟩ := ih c1 hs
      exact ⟨cs2, c2.mono (by simp; omega)⟩
    | _ => rw [h1] at hs; cases hs

theorem codes_all {l out : Bytes} (h : compressAll l = .ok out) : ∃ cs, out = wrs cs ∧ (∀ c ∈ cs, c ≤ flushCode) ∧
    (firstCode + 2 * l.length < maxCode → optimizeCode ∉ cs ∧ cs.length ≤ 2 * l.length + 2) := by
  have k1 : maxCode < optimizeCode := by decide
  have k2 : optimizeCode < flushCode := by decide
  unfold compressAll at h
  cases h1 : putAll {} l with
  | ok s =>
    rw [h1, Res.bind_ok] at h
    obtain ⟨cs, c1⟩ := codes_putAll l (m := 0) (cs := []) (s := {})
      ⟨rfl, by simp, fun q hq => (by cases hq), fun _ => ⟨by simp, by simp, Nat.le_refl _, fun e he => (by cases he)⟩⟩ h1
    have h := Res.ok.inj h
    unfold finish at h
    cases hl : s.lastSeq with
    | none =>
      rw [hl] at h
      refine ⟨cs, h.symm.trans c1.out, c1.le, fun hm => ?_⟩
      obtain ⟨a1, a2, _⟩ := c1.small (by omega)
      exact ⟨a1, by omega⟩
    | some q =>
      have hq := c1.last q hl
      rw [hl] at h
      refine ⟨cs ++ [q, flushCode], ?_, ?_, fun hm => ?_⟩
      · rw [← h, wrs_append, ← c1.out, wrs_cons, wrs_one, ← List.append_assoc]
        rfl
      · intro x hx
        rcases List.mem_append.1 hx with hx | hx
        · exact c1.le x hx
        · rcases List.mem_cons.1 hx with hx | hx
          · omega
          · rw [List.mem_singleton.1 hx]; omega
      · obtain ⟨a1, a2, _⟩ := c1.small (by omega)
        refine ⟨fun hx => ?_, by simp; omega⟩
        rcases List.mem_append.1 hx with hx | hx
        · exact a1 hx
        · rcases List.mem_cons.1 hx with hx | hx
          · omega
          · have := List.mem_singleton.1 hx; omega
  | _ => rw [h1] at h; cases h

/-- A first part of the bytes of codes is the bytes of a first part of the codes, and perhaps the first byte of a code of two. -/
theorem wrs_take : ∀ (cs : List Nat) (k : Nat), (∀ c ∈ cs, c ≤ flushCode) → ∃ a b z, cs = a ++ b ∧ (wrs cs).take k = wrs a ++ z ∧
    (z = [] ∨ ∃ x, z = [x] ∧ 128 ≤ x ∧ x < 256) := by
  intro cs
  induction cs with
  | nil => intro k _; exact ⟨[], [], [], rfl, by simp [wrs], Or.inl rfl⟩
  | cons c cs ih =>
    intro k hc
    have hle := hc c (by simp)
    by_cases hk : (wr c).length ≤ k
    · obtain ⟨a, b, z, h1, h2, h3⟩ := ih (k - (wr c).length) (fun x hx => hc x (by simp [hx]))
      refine ⟨c :: a, b, z, by rw [h1]; rfl, ?_, h3⟩
      rw [wrs_cons, wrs_cons, List.append_assoc, ← h2, List.take_append, List.take_of_length_le hk]
    · refine ⟨[], c :: cs, (wr c).take k, rfl, ?_, ?_⟩
      · rw [wrs_cons, List.take_append, show k - (wr c).length = 0 by omega]
        simp [wrs]
      · by_cases h0 : k = 0
        · exact Or.inl (by simp [h0])
        · by_cases hs : c < extCodeMask
          · rw [wr, if_pos hs] at hk
            simp at hk
            omega
          · rw [wr, if_neg hs] at hk ⊢
            simp at hk
            have : k = 1 := by omega
            subst this
            refine Or.inr ⟨_, rfl, ?_⟩
            have hx : ∀ v, v < 128 → 128 ≤ v % 256 ||| extCodeMask ∧ v % 256 ||| extCodeMask < 256 := by decide +kernel
            exact hx _ (by
              have e1 : flushCode = 32895 := by decide
              have e2 : extCodeMask = 128 := by decide
              omega)

/-! ### C172 -/

/-- **C172, cut between codes.** Codes of which the decompressor makes a text: when only a first part of the codes arrives, the
decompressor makes a first part of the text and no error. -/
theorem C172_between (cs cs' : List Nat) (h : ∀ c ∈ cs, c ≤ flushCode) (n : Nat) (t : Bytes) (e : Dec)
    (hg : getAll n { inp := wrs (cs ++ cs') } = .ok (t, e)) : ∃ t' e', getAll n { inp := wrs cs } = .ok (t', e') ∧ t' <+: t := by
  rw [wrs_append] at hg
  rcases getAll_cut (ends_nil 0) (wrs cs') n cs {} h (Or.inl trivial) t e hg with h1 | ⟨h1, _⟩
  · simpa [withIn] using h1
  · exact h1.elim

/-- The text of a run, if there is one. -/
def told (r : Res (Bytes × Dec)) : Option Bytes :=
  match r with
  | .ok (t, _) => some t
  | _ => none

example : (∀ c ∈ [71, 102], c ≤ flushCode) ∧
    told (getAll 10 { inp := wrs ([71, 102] ++ [71, 1, 3, 41, flushCode]) }) = some [0x61, 0x61, 0x61, 0x61, 0xC3, 0xA9] ∧
    told (getAll 10 { inp := wrs [71, 102] }) = some [0x61, 0x61, 0x61] := by decide +kernel

/-- **C172, cut anywhere.** The compressed form of a text of at most 139 bytes, cut at any place: the decompressor makes a first part of
the text, or reports an error. -/
theorem C172_short_partial (l : Bytes) (h : Spec.WellFormedUtf8 l) (hc : ∀ b ∈ l, 32 ≤ b) (hl : l.length ≤ 139) (k : Nat) :
    ∃ out, compressAll l = .ok out ∧ ((∃ t e, getAll (l.length + 1) { inp := out.take k } = .ok (t, e) ∧ t <+: l) ∨
      getAll (l.length + 1) { inp := out.take k } = .err) := by
  obtain ⟨out, d, h1, h2⟩ := C50_round_trip l h hc
  refine ⟨out, h1, ?_⟩
  obtain ⟨cs, rfl, c2, c3⟩ := codes_all h1
  obtain ⟨c4, c5⟩ := c3 (by
    have e1 : maxCode = 32893 := by decide
    have e2 : firstCode = 102 := by decide
    omega)
  obtain ⟨a, b, z, rfl, h4, h5⟩ := wrs_take cs k c2
  rw [h4]
  have ca : ∀ c ∈ a, c ≤ flushCode := fun c hc => c2 c (by simp [hc])
  rcases h5 with rfl | ⟨x, rfl, hx1, hx2⟩
  · obtain ⟨t, e, g1, g2⟩ := C172_between a b ca _ _ _ h2
    rw [List.append_nil]
    exact Or.inl ⟨t, e, g1, g2⟩
  · rw [wrs_append] at h2
    rcases getAll_cut (ends_one x hx1 hx2) (wrs b) _ a {} ca (Or.inr ⟨fun hm => c4 (by simp [hm]), by
      simp only [List.length_append, List.length_nil] at c5 ⊢; omega⟩) l d h2 with g | ⟨_, g⟩
    · exact Or.inl g
    · exact Or.inr g

/-- A short text whose compressed form has a code of two bytes (its bytes 59 and 60): cut inside that code it is an error, and cut
before or after it a first part. -/
example : ((List.range 58).map (· + 65) ++ [0x79, 0x7A]).length ≤ 139 ∧
    compressAll ((List.range 58).map (· + 65) ++ [0x79, 0x7A]) = .ok ((List.range 58).map (· + 39) ++ [128, 30, 255, 255]) ∧
    told (getAll 61 { inp := (List.range 58).map (· + 39) }) = some ((List.range 58).map (· + 65)) ∧
    told (getAll 61 { inp := (List.range 58).map (· + 39) ++ [128] }) = none ∧
    told (getAll 61 { inp := (List.range 58).map (· + 39) ++ [128, 30] }) = some ((List.range 58).map (· + 65) ++ [0x79, 0x7A]) := by
  decide +kernel

/-- **C172, cut anywhere but inside a code.** The compressed form of any text is bytes of codes; cut after any of them, the decompressor
makes a first part of the text. -/
theorem C172_any_partial (l : Bytes) (h : Spec.WellFormedUtf8 l) (hc : ∀ b ∈ l, 32 ≤ b) :
    ∃ cs, compressAll l = .ok (cs.flatMap wr) ∧ ∀ a, a <+: cs → ∃ t e, getAll (l.length + 1) { inp := a.flatMap wr } = .ok (t, e) ∧ t <+: l := by
  obtain ⟨out, d, h1, h2⟩ := C50_round_trip l h hc
  obtain ⟨cs, rfl, c2, _⟩ := codes_all h1
  refine ⟨cs, h1, ?_⟩
  rintro a ⟨b, rfl⟩
  exact C172_between a b (fun c hc => c2 c (by simp [hc])) _ _ _ h2

/-! ### Bytes 0xFF at the end -/

/-- Two runs tell the same: the same symbol and states that differ in bytes 0xFF at the end of the input, or no symbol from either. -/
def SameEnd (a b : Res (Nat × Dec)) : Prop :=
  (∃ c d x j, a = .ok (c, withIn x d) ∧ b = .ok (c, withIn (x ++ List.replicate j 255) d)) ∨ ((∀ r, a ≠ .ok r) ∧ ∀ r, b ≠ .ok r)

theorem readCode_ff (x : Bytes) (j : Nat) : ∃ j', readCode (x ++ List.replicate j 255) = ((readCode x).1, (readCode x).2 ++ List.replicate j' 255) := by
  have n0 : ∀ (x : Bytes) j, ∃ j', nextByte (x ++ List.replicate j 255) = ((nextByte x).1, (nextByte x).2 ++ List.replicate j' 255) := by
    intro x j
    cases x with
    | cons b l => exact ⟨j, rfl⟩
    | nil =>
      cases j with
      | zero => exact ⟨0, rfl⟩
      | succ j => exact ⟨j, rfl⟩
  obtain ⟨j1, e1⟩ := n0 x j
  unfold readCode
  rw [e1]
  dsimp only
  split
  · exact ⟨j1, rfl⟩
  · obtain ⟨j2, e2⟩ := n0 (nextByte x).2 j1
    rw [e2]
    exact ⟨j2, rfl⟩

theorem decompress_ff (x : Bytes) (j : Nat) (d : Dec) (f f' : Nat) (hf : x.length < f) (hf' : x.length < f') :
    SameEnd (decompress f (withIn x d)) (decompress f' (withIn (x ++ List.replicate j 255) d)) := by
  induction f generalizing x j d f' with
  | zero => omega
  | succ g ih =>
    cases hr : d.ready with
    | cons c l =>
      left
      refine ⟨c, { d with ready := l }, x, j, ?_, ?_⟩
      · rw [decompress.eq_def]
        dsimp only [withIn]
        rw [hr]
      · rw [decompress.eq_def]
        dsimp only [withIn]
        rw [hr]
    | nil =>
      obtain ⟨g', rfl⟩ : ∃ g', f' = g' + 1 := ⟨f' - 1, by omega⟩
      obtain ⟨j', e⟩ := readCode_ff x j
      rw [decompress_nil (d := withIn x d) hr, decompress_nil (d := withIn (x ++ List.replicate j 255) d) hr,
        show (withIn x d).inp = x from rfl, show (withIn (x ++ List.replicate j 255) d).inp = x ++ List.replicate j 255 from rfl, e]
      dsimp only
      by_cases h1 : (readCode x).1 = flushCode
      · rw [if_pos h1, if_pos h1]
        exact Or.inl ⟨255, { d with db := [], prev := none }, (readCode x).2, j', rfl, rfl⟩
      · rw [if_neg h1, if_neg h1]
        by_cases h2 : (readCode x).1 = optimizeCode
        · rw [if_pos h2, if_pos h2]
          have hx : x ≠ [] := by
            rintro rfl
            rw [readCode_nil] at h1
            exact h1 rfl
          have := readCode_shorter hx
          exact ih (readCode x).2 j' { d with db := d.ndb, ndb := [], prev := none } g' (by omega) (by omega)
        · rw [if_neg h2, if_neg h2]
          have e1 := expand_in (readCode x).2 d (readCode x).1
          have e2 := expand_in ((readCode x).2 ++ List.replicate j' 255) d (readCode x).1
          dsimp only [withIn] at e1 e2
          dsimp only [withIn]
          rw [e1, e2]
          cases expand d (readCode x).1 with
          | ok a => exact Or.inl ⟨a.1, a.2, _, _, rfl, rfl⟩
          | _ => exact Or.inr ⟨fun r h => (by cases h), fun r h => (by cases h)⟩

theorem decomp_ff (x : Bytes) (j : Nat) (d : Dec) : SameEnd (decomp (withIn x d)) (decomp (withIn (x ++ List.replicate j 255) d)) :=
  decompress_ff x j d _ _ (Nat.lt_succ_self _) (by
    show x.length < (x ++ List.replicate j 255).length + 1
    rw [List.length_append]
    omega)

theorem lead_ff (x : Bytes) (j : Nat) (d : Dec) (n m : Nat) : SameEnd (lead (withIn x d) n m) (lead (withIn (x ++ List.replicate j 255) d) n m) := by
  have e : ∀ i, lead (withIn i d) n m = (decomp (withIn i { d with utf8len := n }) >>= fun r => .ok (r.1 ||| m, r.2)) := fun i => rfl
  rw [e, e]
  rcases decomp_ff x j { d with utf8len := n } with ⟨c, d1, x1, j1, a1, a2⟩ | ⟨a1, a2⟩
  · rw [a1, a2]
    exact Or.inl ⟨c ||| m, d1, x1, j1, rfl, rfl⟩
  · refine Or.inr ⟨fun r h => ?_, fun r h => ?_⟩
    · obtain ⟨y, h1, _⟩ := dbind_inv h
      exact a1 y h1
    · obtain ⟨y, h1, _⟩ := dbind_inv h
      exact a2 y h1

theorem get_ff (x : Bytes) (j : Nat) (d : Dec) : SameEnd (Compr.get (withIn x d)) (Compr.get (withIn (x ++ List.replicate j 255) d)) := by
  unfold Compr.get
  rcases decomp_ff x j d with ⟨c, d1, x1, j1, a1, a2⟩ | ⟨a1, a2⟩
  · rw [a1, a2, Res.bind_ok, Res.bind_ok]
    dsimp only
    have eu : ∀ i, (withIn i d1).utf8len = d1.utf8len := fun _ => rfl
    rw [eu, eu]
    by_cases hu : d1.utf8len ≠ 0
    · rw [if_pos hu, if_pos hu]
      exact Or.inl ⟨_, { d1 with utf8len := d1.utf8len - 1 }, x1, j1, rfl, rfl⟩
    · rw [if_neg hu, if_neg hu]
      by_cases h0 : c = 255
      · rw [if_pos h0, if_pos h0]
        exact Or.inl ⟨_, d1, x1, j1, rfl, rfl⟩
      · rw [if_neg h0, if_neg h0]
        by_cases h1 : c = 1
        · rw [if_pos h1, if_pos h1]; exact lead_ff _ _ _ _ _
        · rw [if_neg h1, if_neg h1]
          by_cases h2 : c = 2
          · rw [if_pos h2, if_pos h2]; exact lead_ff _ _ _ _ _
          · rw [if_neg h2, if_neg h2]
            by_cases h3 : c = 3
            · rw [if_pos h3, if_pos h3]; exact lead_ff _ _ _ _ _
            · rw [if_neg h3, if_neg h3]
              by_cases h4 : c = 4
              · rw [if_pos h4, if_pos h4]; exact lead_ff _ _ _ _ _
              · rw [if_neg h4, if_neg h4]
                exact Or.inl ⟨_, d1, x1, j1, rfl, rfl⟩
  · refine Or.inr ⟨fun r h => ?_, fun r h => ?_⟩
    · obtain ⟨y, h1, _⟩ := dbind_inv h
      exact a1 y h1
    · obtain ⟨y, h1, _⟩ := dbind_inv h
      exact a2 y h1

theorem getAll_ff : ∀ (n : Nat) (x : Bytes) (j : Nat) (d : Dec) (t : Bytes),
    (∃ e, getAll n (withIn x d) = .ok (t, e)) ↔ ∃ e, getAll n (withIn (x ++ List.replicate j 255) d) = .ok (t, e) := by
  intro n
  induction n with
  | zero => intro x j d t; exact ⟨fun ⟨e, h⟩ => (by cases h), fun ⟨e, h⟩ => (by cases h)⟩
  | succ n ih =>
    intro x j d t
    rw [getAll.eq_def, getAll.eq_def]
    dsimp only
    rcases get_ff x j d with ⟨c, d1, x1, j1, a1, a2⟩ | ⟨a1, a2⟩
    · rw [a1, a2, Res.bind_ok, Res.bind_ok]
      dsimp only
      by_cases h0 : c = 255
      · rw [if_pos h0, if_pos h0]
        exact ⟨fun ⟨e, h⟩ => (by cases h; exact ⟨_, rfl⟩), fun ⟨e, h⟩ => (by cases h; exact ⟨_, rfl⟩)⟩
      · rw [if_neg h0, if_neg h0]
        constructor
        · rintro ⟨e, h⟩
          obtain ⟨⟨t1, e1⟩, h1, h2⟩ := dbind_inv h
          cases h2
          obtain ⟨e2, h3⟩ := (ih x1 j1 d1 t1).1 ⟨e1, h1⟩
          exact ⟨e2, by rw [h3]; rfl⟩
        · rintro ⟨e, h⟩
          obtain ⟨⟨t1, e1⟩, h1, h2⟩ := dbind_inv h
          cases h2
          obtain ⟨e2, h3⟩ := (ih x1 j1 d1 t1).2 ⟨e1, h1⟩
          exact ⟨e2, by rw [h3]; rfl⟩
    · refine ⟨fun ⟨e, h⟩ => ?_, fun ⟨e, h⟩ => ?_⟩
      · obtain ⟨y, h1, _⟩ := dbind_inv h
        exact absurd h1 (a1 y)
      · obtain ⟨y, h1, _⟩ := dbind_inv h
        exact absurd h1 (a2 y)

/-- **C172, the mark of the end.** Bytes 0xFF at the end of any input make no difference to the text, from any state of the
decompressor: a compressed text that lost its mark of the end, or a part of it, is still whole. -/
theorem C172_end (d : Dec) (i : Bytes) (j n : Nat) (t : Bytes) :
    (∃ e, getAll n { d with inp := i } = .ok (t, e)) ↔ ∃ e, getAll n { d with inp := i ++ List.replicate j 255 } = .ok (t, e) :=
  getAll_ff n i j d t

example : told (getAll 9 { inp := [71, 72, 102] }) = some [0x61, 0x62, 0x61, 0x62] ∧
    told (getAll 9 { inp := [71, 72, 102] ++ List.replicate 2 255 }) = some [0x61, 0x62, 0x61, 0x62] := by decide +kernel

/-- The text of the violation: 287 letters, the last of them seen before. -/
def cutText : Bytes := [
  97, 109, 110, 98, 105, 113, 112, 109, 106, 112, 108, 103, 113, 101, 106, 101, 100, 105, 101, 108, 100, 99, 107, 112, 100, 110, 111, 107, 103, 112, 105, 106,
  98, 97, 99, 110, 97, 114, 107, 105, 110, 104, 99, 103, 104, 105, 112, 99, 112, 110, 107, 98, 100, 103, 114, 114, 113, 100, 102, 114, 101, 111, 100, 109,
  108, 105, 114, 108, 108, 110, 103, 105, 98, 109, 112, 106, 104, 106, 103, 99, 100, 100, 97, 107, 110, 105, 107, 99, 98, 111, 102, 101, 97, 113, 98, 113,
  114, 106, 111, 105, 109, 101, 109, 114, 100, 106, 113, 109, 104, 109, 102, 112, 111, 111, 112, 104, 98, 104, 111, 98, 108, 111, 114, 104, 102, 100, 98, 103,
  98, 102, 104, 101, 104, 110, 99, 99, 102, 111, 103, 97, 108, 113, 108, 112, 98, 98, 99, 105, 99, 111, 99, 109, 98, 101, 113, 97, 101, 101, 99, 106,
  102, 113, 99, 114, 97, 110, 110, 101, 107, 100, 108, 98, 110, 112, 113, 104, 97, 111, 113, 102, 109, 99, 108, 102, 103, 107, 109, 103, 103, 100, 114, 102,
  99, 104, 108, 99, 113, 107, 102, 97, 106, 108, 107, 114, 109, 111, 104, 107, 107, 101, 110, 113, 103, 108, 114, 98, 112, 112, 97, 103, 102, 102, 107, 106,
  106, 109, 109, 113, 106, 110, 106, 105, 108, 97, 97, 105, 100, 113, 111, 101, 102, 105, 111, 109, 107, 113, 110, 100, 111, 110, 102, 106, 107, 97, 102, 110,
  108, 109, 105, 104, 113, 105, 97, 112, 103, 109, 100, 101, 112, 102, 98, 114, 103, 101, 114, 111, 106, 97, 98, 106, 114, 99, 97, 100, 104, 101, 111]

/-- The run of the violation. -/
def cutBad : Bool :=
  match compressAll cutText with
  | .ok out => out.length == 289 && (match getAll 288 { inp := out.take 285 } with
    | .ok (t, _) => !(t.isPrefixOf cutText)
    | _ => false)
  | _ => false

theorem cutBad_true : cutBad = true := by decide +kernel

/-- **C172, what goes wrong.** The compressed form of a text of 287 letters, cut inside its last but two codes: the decompressor ends
without an error, and what it made is not a first part of the text (`…adca` for `…adheo`). -/
theorem C172_violation : ∃ out t d, (∀ b ∈ cutText, 97 ≤ b ∧ b ≤ 122) ∧ compressAll cutText = .ok out ∧ out.length = 289 ∧
    getAll 288 { inp := out.take 285 } = .ok (t, d) ∧ ¬ t <+: cutText := by
  have h := cutBad_true
  unfold cutBad at h
  split at h
  · rename_i out h1
    obtain ⟨h2, h3⟩ := Bool.and_eq_true_iff.1 h
    split at h3
    · rename_i t d h4
      refine ⟨out, t, d, by decide +kernel, h1, by simpa using h2, h4, fun hp => ?_⟩
      rw [List.isPrefixOf_iff_prefix.2 hp] at h3
      exact absurd h3 (by decide)
    · exact absurd h3 (by decide)
  · exact absurd h (by decide)

end Imt.Props
