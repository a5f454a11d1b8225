import Verif.Lemmas.BinTrip
/-! # Binary JSON: termination and memory safety of the parser

Both are instances of one Hoare-style statement: `U` says whether undefined behaviour is tolerated, `F` whether running
out of fuel is. -/
namespace Imt.BinJson
open Imt

/-- Outcome of a step. -/
def Post {α} (U F : Prop) (Q : α → Prop) : Res α → Prop
  | .ok a => Q a
  | .ub => U
  | .fuel => F
  | .err => True
  | .abort => False

theorem Post.bind {α β} {U F : Prop} {Q : α → Prop} {Q' : β → Prop} {r : Res α} {g : α → Res β} (h : Post U F Q r)
    (hg : ∀ a, Q a → Post U F Q' (g a)) : Post U F Q' (r >>= g) := by
  match r, h with
  | .ok a, h => exact hg a h
  | .err, _ => trivial
  | .ub, h => exact h
  | .fuel, h => exact h
  | .abort, h => exact h

theorem Post.mono {α} {U F U' F' : Prop} {Q Q' : α → Prop} {r : Res α} (h : Post U F Q r) (hU : U → U') (hF : F → F')
    (hQ : ∀ a, Q a → Q' a) : Post U' F' Q' r := by
  match r, h with
  | .ok a, h => exact hQ a h
  | .err, _ => trivial
  | .ub, h => exact hU h
  | .fuel, h => exact hF h
  | .abort, h => exact h

/-- The stream advanced, the key history did not change. -/
def Suf (ps ps' : PS) : Prop := (∃ t, ps.s = t ++ ps'.s) ∧ ps'.hist = ps.hist ∧ ps'.ki = ps.ki

theorem Suf.rfl {ps : PS} : Suf ps ps := ⟨⟨[], by simp⟩, by simp, by simp⟩
theorem Suf.trans {a b c : PS} (h1 : Suf a b) (h2 : Suf b c) : Suf a c := by
  obtain ⟨⟨t, h1⟩, h2', h3'⟩ := h1
  obtain ⟨⟨u, h4⟩, h5, h6⟩ := h2
  exact ⟨⟨t ++ u, by rw [h1, h4, List.append_assoc]⟩, h5.trans h2', h6.trans h3'⟩
theorem Suf.len {a b : PS} (h : Suf a b) : b.s.length ≤ a.s.length := by
  obtain ⟨⟨t, h⟩, _⟩ := h; rw [h]; simp
theorem Suf.all {a b : PS} {P : Nat → Prop} (h : Suf a b) (ha : ∀ x ∈ a.s, P x) : ∀ x ∈ b.s, P x := by
  obtain ⟨⟨t, h⟩, _⟩ := h
  intro x hx; exact ha x (by rw [h]; simp [hx])

theorem next_post (env : Env) (ps : PS) (hv : Bytes.Valid ps.s) :
    Post False False (fun r => r.1 < 256 ∧ Suf ps r.2 ∧ (env.eofThrows = true → r.2.s.length < ps.s.length) ∧
      (r.1 ∈ ps.s ∨ r.1 = 255)) (next env ps) := by
  unfold next
  split
  · next c r h =>
    exact ⟨hv c (by rw [h]; simp), ⟨⟨[c], by simp [h]⟩, by simp, by simp⟩, by simp [h], Or.inl (by simp [h])⟩
  · split
    · trivial
    · next he => exact ⟨by simp, Suf.rfl, fun h => absurd h he, Or.inr (by simp)⟩

theorem readN_post (env : Env) (n : Nat) (ps : PS) (hv : Bytes.Valid ps.s) :
    Post False False (fun r => Bytes.Valid r.1 ∧ r.1.length = n ∧ Suf ps r.2) (readN env n ps) := by
  induction n generalizing ps with
  | zero => exact ⟨by intro b hb; simp at hb, by simp, Suf.rfl⟩
  | succ n ih =>
    unfold readN
    refine (next_post env ps hv).bind fun c ⟨h1, h2, _, _⟩ => ?_
    refine (ih c.2 (h2.all hv)).bind fun r ⟨h3, h4, h5⟩ => ?_
    refine ⟨?_, by simp [h4], h2.trans h5⟩
    intro b hb
    rcases List.mem_cons.1 hb with rfl | hb
    · exact h1
    · exact h3 b hb

theorem ofLe_lt (b : Bytes) (hv : Bytes.Valid b) : ofLe b < 256 ^ b.length := by
  induction b with
  | nil => simp [ofLe]
  | cons c b ih =>
    have h1 := hv c (by simp)
    have h2 := ih (fun x hx => hv x (by simp [hx]))
    simp only [ofLe, List.length_cons, Nat.pow_succ]
    omega

theorem parseInteger_post (env : Env) (tag : Nat) (ps : PS) (hv : Bytes.Valid ps.s) :
    Post False False (fun r => r.1 < 2 ^ 64 ∧ (tag % 16 ≠ 13 → r.1 < 2 ^ 32) ∧ Suf ps r.2)
      (parseInteger env tag ps) := by
  unfold parseInteger
  simp only
  have go : ∀ k, Post False False (fun r : Nat × PS => r.1 < 256 ^ k ∧ Suf ps r.2)
      (do let r ← readN env k ps
          pure (ofLe r.1, r.2)) := by
    intro k
    refine (readN_post env k ps hv).bind fun r ⟨h1, h2, h3⟩ => ?_
    exact ⟨by have := ofLe_lt _ h1; rw [h2] at this; exact this, h3⟩
  split
  · exact (go 1).mono id id fun a ⟨h1, h2⟩ => ⟨by omega, fun _ => by omega, h2⟩
  · exact (go 2).mono id id fun a ⟨h1, h2⟩ => ⟨by omega, fun _ => by omega, h2⟩
  · exact (go 4).mono id id fun a ⟨h1, h2⟩ => ⟨by omega, fun _ => by omega, h2⟩
  · next h => exact (go 8).mono id id fun a ⟨h1, h2⟩ => ⟨by omega, fun h' => absurd h h', h2⟩
  · exact ⟨by simp only; omega, fun _ => by simp only; omega, Suf.rfl⟩

/-- Sizes of the fixed parts of the objects are small. -/
def Small (env : Env) : Prop := env.objStr < 2 ^ 32 ∧ env.magic < 2 ^ 32 ∧ env.objArr < 2 ^ 32

theorem allocStr_post (U : Prop) (env : Env) (n : Nat) (h : U ∨ (Small env ∧ n < 2 ^ 32)) :
    Post U False (fun _ => True) (allocStr env n) := by
  unfold allocStr
  simp only
  split
  · trivial
  · split
    · next h' =>
      rcases h with h | ⟨⟨h1, h2, h3⟩, h4⟩
      · exact h
      · exfalso; omega
    · trivial

theorem allocArr_post (U : Prop) (env : Env) (n : Nat) (h : U ∨ (Small env ∧ n < 2 ^ 32)) :
    Post U False (fun slots => U ∨ slots = n) (allocArr env n) := by
  unfold allocArr
  simp only
  split
  · trivial
  · split
    · next h' =>
      rcases h with h | ⟨⟨h1, h2, h3⟩, h4⟩
      · exact h
      · exfalso; rw [Nat.mod_eq_of_lt (by omega)] at h'; omega
    · rcases h with h | ⟨⟨h1, h2, h3⟩, h4⟩
      · exact Or.inl h
      · refine Or.inr ?_
        rw [Nat.mod_eq_of_lt (by omega)]; omega

theorem readToken_post (env : Env) (sz x : Nat) (ps : PS) (hv : Bytes.Valid ps.s) :
    Post False False (fun r => Suf ps r.2) (readToken env sz x ps) := by
  unfold readToken
  simp only
  rw [Base64.lookupUrl _ (Nat.mod_lt _ (by decide))]
  simp only [Res.bind_ok]
  refine (readN_post env _ ps hv).bind fun r ⟨h1, h2, h3⟩ => ?_
  rw [Base64.encodeCore_eq Base64.lookupUrl]
  · exact h3
  · intro b hb
    rcases List.mem_append.1 hb with hb | hb
    · exact h1 b hb
    · simp only [List.mem_map] at hb
      obtain ⟨j, _, rfl⟩ := hb
      omega

theorem parseString_post (U : Prop) (env : Env) (tag : Nat) (enc : Bool) (ps : PS) (hv : Bytes.Valid ps.s)
    (hU : U ∨ (Small env ∧ tag % 16 ≠ 13)) :
    Post U False (fun r => Suf ps r.2) (parseString env tag enc ps) := by
  unfold parseString
  refine ((parseInteger_post env tag ps hv).mono False.elim id fun _ h => h).bind fun n ⟨h1, h2, h3⟩ => ?_
  have ha : U ∨ (Small env ∧ n.1 < 2 ^ 32) := hU.imp id (fun ⟨a, b⟩ => ⟨a, h2 b⟩)
  simp only
  split
  · exact h3
  · split
    · refine ((next_post env n.2 (h3.all hv)).mono False.elim id fun _ h => h).bind fun x ⟨_, g2, _, _⟩ => ?_
      refine (allocStr_post U env n.1 ha).bind fun _ _ => ?_
      split
      · exact (readToken_post env _ _ _ (g2.all (h3.all hv))).mono False.elim id
          (fun r h => h3.trans (g2.trans h))
      · refine ((readN_post env _ x.2 (g2.all (h3.all hv))).mono False.elim id fun _ h => h).bind fun r ⟨_, _, g3⟩ => ?_
        exact h3.trans (g2.trans g3)
    · refine (allocStr_post U env n.1 ha).bind fun _ _ => ?_
      exact (readN_post env _ n.2 (h3.all hv)).mono False.elim id fun r ⟨_, _, g⟩ => h3.trans g

/-- The ring of remembered keys is either full or filled up to the key index. -/
def Ring (ps : PS) : Prop := ps.hist.length = 128 ∨ (ps.hist.length = ps.ki ∧ ps.ki < 128)

theorem storeKey_post (U : Prop) (ps : PS) (k : Bytes) (h : U ∨ Ring ps) :
    Post U False (fun ps' => ps'.s = ps.s ∧ (U ∨ Ring ps')) (storeKey ps k) := by
  unfold storeKey
  simp only
  split
  · next h1 =>
    refine ⟨rfl, h.imp id ?_⟩
    rintro (h2 | ⟨h2, h3⟩)
    · omega
    · unfold Ring; simp only [List.length_append, List.length_singleton]; omega
  · split
    · refine ⟨rfl, h.imp id ?_⟩
      rintro (h2 | ⟨h2, h3⟩)
      · left; simpa using h2
      · omega
    · rcases h with h | h | ⟨h2, h3⟩
      · exact h
      · omega
      · omega

/-- What the recursive functions guarantee. -/
def After {α} (U : Prop) (env : Env) (strict : Bool) (ps : PS) (r : α × PS) : Prop :=
  (∃ t, ps.s = t ++ r.2.s) ∧ (strict = true → env.eofThrows = true → r.2.s.length < ps.s.length) ∧ (U ∨ Ring r.2)

theorem negInt_post (U : Prop) (n : Nat) (h : U ∨ n < 2 ^ 32) : Post U False (fun _ => True) (negInt n) := by
  unfold negInt
  split
  · trivial
  · split
    · trivial
    · split
      · rcases h with h | h
        · exact h
        · exfalso; omega
      · trivial

mutual
theorem parseItem_post (U F : Prop) (env : Env) (f : Nat) (ps : PS) (hv : Bytes.Valid ps.s)
    (hU : U ∨ (Small env ∧ (∀ b ∈ ps.s, b % 16 ≠ 13) ∧ Ring ps))
    (hF : F ∨ (env.eofThrows = true ∧ 2 * ps.s.length + 1 ≤ f)) :
    Post U F (After U env true ps) (parseItem env f ps) := by
  match f with
  | 0 =>
    unfold parseItem
    rcases hF with h | h
    · exact h
    · omega
  | f + 1 =>
    rw [parseItem]
    refine ((next_post env ps hv).mono False.elim False.elim fun _ h => h).bind fun t ⟨g1, g2, g3, g4⟩ => ?_
    have hv2 : Bytes.Valid t.2.s := g2.all hv
    have hU2 : U ∨ (Small env ∧ (∀ b ∈ t.2.s, b % 16 ≠ 13) ∧ Ring t.2) := by
      refine hU.imp id fun ⟨a, b, c⟩ => ⟨a, g2.all b, ?_⟩
      unfold Ring at c ⊢; rw [g2.2.1, g2.2.2]; exact c
    have hF2 : F ∨ (env.eofThrows = true ∧ 2 * t.2.s.length + 2 ≤ f) :=
      hF.imp id fun ⟨a, b⟩ => ⟨a, by have := g3 a; omega⟩
    have htag : U ∨ (Small env ∧ t.1 % 16 ≠ 13) := by
      refine hU.imp id fun ⟨a, b, c⟩ => ⟨a, ?_⟩
      rcases g4 with h | h
      · exact b _ h
      · rw [h]; decide
    -- a step after the tag that only advances the stream
    have fin : ∀ {α} (a : α) (ps' : PS), Suf t.2 ps' → After U env true ps (a, ps') := by
      intro α a ps' h
      have h' := g2.trans h
      refine ⟨h'.1, fun _ he => ?_, ?_⟩
      · have := g3 he; have := h.len; simp only; omega
      · refine hU2.imp id fun ⟨_, _, c⟩ => ?_
        unfold Ring at c ⊢; rw [h.2.1, h.2.2]; exact c
    have items : ∀ (sh : Shape) (tag : Nat) (ps1 : PS), Suf t.2 ps1 → (U ∨ (Small env ∧ tag % 16 ≠ 13)) →
        Post U F (After U env true ps) (do
          let n ← parseInteger env tag ps1
          let slots ← allocArr env n.1
          let r ← parseItems env f n.1 slots n.2
          pure (BV.node [] sh r.1, r.2)) := by
      intro sh tag ps1 hs ht
      refine ((parseInteger_post env tag ps1 (hs.all hv2)).mono False.elim False.elim fun _ h => h).bind
        fun n ⟨_, n2, n3⟩ => ?_
      have n4 := hs.trans n3
      refine ((allocArr_post U env n.1 (ht.imp id fun ⟨a, b⟩ => ⟨a, n2 b⟩)).mono id False.elim fun _ h => h).bind
        fun slots hsl => ?_
      have hUi : U ∨ (Small env ∧ (∀ b ∈ n.2.s, b % 16 ≠ 13) ∧ Ring n.2) := by
        refine hU2.imp id fun ⟨a, b, c⟩ => ⟨a, n4.all b, ?_⟩
        unfold Ring at c ⊢; rw [n4.2.1, n4.2.2]; exact c
      have hFi : F ∨ (env.eofThrows = true ∧ 2 * n.2.s.length + 2 ≤ f) :=
        hF2.imp id fun ⟨a, b⟩ => ⟨a, by have := n4.len; omega⟩
      refine (parseItems_post U F env f n.1 slots n.2 (n4.all hv2) hUi hFi (hsl.imp id fun h => by omega)).bind
        fun r ⟨⟨u, r1⟩, _, r3⟩ => ?_
      obtain ⟨⟨w, hw⟩, _⟩ := g2.trans n4
      refine ⟨⟨w ++ u, by rw [hw, r1, List.append_assoc]⟩, fun _ he => ?_, r3⟩
      have := g3 he; have := n4.len; simp only
      have : r.2.s.length ≤ n.2.s.length := by rw [r1]; simp
      omega
    have keyed : ∀ (k : Bytes) (ps1 : PS), (∃ u, t.2.s = u ++ ps1.s) → (U ∨ Ring ps1) →
        Post U F (After U env true ps) (do
          let v ← parseItem env f ps1
          pure (v.1.withKey k, v.2)) := by
      intro k ps1 ⟨u, hu⟩ hr
      have hall : ∀ {P : Nat → Prop}, (∀ x ∈ t.2.s, P x) → ∀ x ∈ ps1.s, P x :=
        fun h x hx => h x (by rw [hu]; simp [hx])
      have hlen : ps1.s.length ≤ t.2.s.length := by rw [hu]; simp
      have hU3 : U ∨ (Small env ∧ (∀ b ∈ ps1.s, b % 16 ≠ 13) ∧ Ring ps1) := by
        rcases hU2 with h | ⟨a, b, _⟩
        · exact Or.inl h
        · exact hr.imp id fun c => ⟨a, hall b, c⟩
      refine (parseItem_post U F env f ps1 (hall hv2) hU3
        (hF2.imp id fun ⟨a, b⟩ => ⟨a, by omega⟩)).bind fun v ⟨⟨w, h1⟩, _, h3⟩ => ?_
      obtain ⟨⟨x, hx⟩, _⟩ := g2
      refine ⟨⟨x ++ u ++ w, by rw [hx, hu, h1]; simp⟩, fun _ he => ?_, h3⟩
      have := g3 he; simp only
      have : v.2.s.length ≤ ps1.s.length := by rw [h1]; simp
      omega
    have rd : ∀ (k : Nat) (g : Bytes → BV), Post U F (After U env true ps) (do
        let r ← readN env k t.2
        pure (g r.1, r.2)) := by
      intro k g
      exact ((readN_post env k t.2 hv2).mono False.elim False.elim fun _ h => h).bind fun r h => fin _ _ h.2.2
    have strs : ∀ (enc : Bool) (g : Bytes → BV), Post U F (After U env true ps) (do
        let r ← parseString env t.1 enc t.2
        pure (g r.1, r.2)) := by
      intro enc g
      exact ((parseString_post U env t.1 enc t.2 hv2 htag).mono id False.elim fun _ h => h).bind
        fun r h => fin _ _ h
    simp only
    split
    · split
      · exact fin _ _ Suf.rfl
      · split
        · exact fin _ _ Suf.rfl
        · split
          · exact fin _ _ Suf.rfl
          · split
            · exact fin _ _ Suf.rfl
            · split
              · exact rd 8 (fun r => .node [] (ofDouble (ofLe r)) [])
              · split
                · exact rd 4 (fun r => .node [] (ofDouble (widen (ofLe r))) [])
                · split
                  · refine ((next_post env t.2 hv2).mono False.elim False.elim fun _ h => h).bind
                      fun o ⟨o1, o2, _, o4⟩ => ?_
                    split
                    · refine items _ o.1 o.2 o2 ?_
                      refine hU2.imp id fun ⟨a, b, _⟩ => ⟨a, ?_⟩
                      rcases o4 with h | h
                      · exact b _ h
                      · rw [h]; decide
                    · trivial
                  · trivial
    · exact items _ _ _ Suf.rfl htag
    · exact items _ _ _ Suf.rfl htag
    · exact strs false (fun r => .node [] (.str r) [])
    · exact strs env.binEnc (fun r => .node [] (if r = [] then .str [] else if env.binEnc then .bin r else .str r) [])
    · refine ((parseInteger_post env t.1 t.2 hv2).mono False.elim False.elim fun _ h => h).bind fun n h => ?_
      exact fin _ _ h.2.2
    · refine ((parseInteger_post env t.1 t.2 hv2).mono False.elim False.elim fun _ h => h).bind fun n h => ?_
      refine ((negInt_post U n.1 (htag.imp id fun ⟨_, b⟩ => h.2.1 b)).mono id False.elim fun _ h => h).bind
        fun _ _ => ?_
      exact fin _ _ h.2.2
    · refine ((parseString_post U env t.1 false t.2 hv2 htag).mono id False.elim fun _ h => h).bind fun k hk => ?_
      have hr : U ∨ Ring k.2 := by
        refine hU2.imp id fun ⟨_, _, c⟩ => ?_
        unfold Ring at c ⊢; rw [hk.2.1, hk.2.2]; exact c
      refine ((storeKey_post U k.2 k.1 hr).mono id False.elim fun _ h => h).bind fun ps1 ⟨h1, h2⟩ => ?_
      obtain ⟨⟨u, hu⟩, _⟩ := hk
      exact keyed k.1 ps1 ⟨u, by rw [h1]; exact hu⟩ h2
    · exact keyed _ t.2 ⟨[], rfl⟩ (hU2.imp id fun h => h.2.2)
theorem parseItems_post (U F : Prop) (env : Env) (f n slots : Nat) (ps : PS) (hv : Bytes.Valid ps.s)
    (hU : U ∨ (Small env ∧ (∀ b ∈ ps.s, b % 16 ≠ 13) ∧ Ring ps))
    (hF : F ∨ (env.eofThrows = true ∧ 2 * ps.s.length + 2 ≤ f)) (hs : U ∨ n ≤ slots) :
    Post U F (After U env false ps) (parseItems env f n slots ps) := by
  match f, n with
  | 0, _ =>
    unfold parseItems
    rcases hF with h | h
    · exact h
    · omega
  | f + 1, 0 =>
    rw [parseItems]
    exact ⟨⟨[], rfl⟩, by simp, hU.imp id fun h => h.2.2⟩
  | f + 1, n + 1 =>
    rw [parseItems]
    refine (parseItem_post U F env f ps hv hU (hF.imp id fun ⟨a, b⟩ => ⟨a, by omega⟩)).bind
      fun v ⟨⟨u, h1⟩, h2, h3⟩ => ?_
    split
    · rcases hs with h | h
      · exact h
      · omega
    · have hall : ∀ {P : Nat → Prop}, (∀ x ∈ ps.s, P x) → ∀ x ∈ v.2.s, P x :=
        fun h x hx => h x (by rw [h1]; simp [hx])
      have hU2 : U ∨ (Small env ∧ (∀ b ∈ v.2.s, b % 16 ≠ 13) ∧ Ring v.2) := by
        rcases hU with h | ⟨a, b, _⟩
        · exact Or.inl h
        · exact h3.imp id fun c => ⟨a, hall b, c⟩
      refine (parseItems_post U F env f n (slots - 1) v.2 (hall hv) hU2
        (hF.imp id fun ⟨a, b⟩ => ⟨a, by have := h2 rfl a; omega⟩) (hs.imp id fun h => by omega)).bind
        fun r ⟨⟨w, r1⟩, _, r3⟩ => ?_
      exact ⟨⟨u ++ w, by rw [h1, r1, List.append_assoc]⟩, by simp, r3⟩
end

end Imt.BinJson
