import Verif.Props.ComprLong
/-!
# Two whole texts: C92, C123

The texts are those of `Props/ComprLong.lean`: the second one fills the dictionary.
-/
namespace Imt.Props
open Imt Imt.Compr

/-- A symbol or code of the text of `a`. -/
def IsA (p : Nat) : Prop := p = 71 ∨ 102 ≤ p

/-- An entry of the dictionary of a text of `a`. -/
structure AEnt (d : DInfo) : Prop where
  ch : d.ch = 71
  prev : IsA d.prev
  new : ∀ n, d.new = some n → IsA n

/-- The dictionary of a text of `a`; the dictionary being prepared starts with `P`. -/
structure ADict (P : List DInfo) (s : Dicts) : Prop where
  db : ∀ d ∈ s.1, AEnt d
  ndb : ∃ t, s.2 = P ++ t ∧ ∀ d ∈ t, AEnt d

theorem dbind_inv {α β : Type} {x : Res α} {f : α → Res β} {r : β} (h : (x >>= f) = .ok r) :
    ∃ a, x = .ok a ∧ f a = .ok r := by
  cases x with
  | ok a => exact ⟨a, rfl, h⟩
  | err => cases h
  | ub => cases h
  | abort => cases h
  | fuel => cases h

theorem daddCode_inv {P : List DInfo} {s s' : Dicts} {i : Nat} {pt : Option Nat} (h : ADict P s)
    (hp : ∀ n, pt = some n → IsA n) (hs : daddCode s i pt = .ok s') : ADict P s' := by
  have hF : firstCode = 102 := rfl
  unfold daddCode at hs
  cases hd : s.1[i]? with
  | none => rw [hd] at hs; cases hs
  | some d =>
    rw [hd] at hs
    dsimp only at hs
    split at hs
    · cases pt with
      | none => cases hs
      | some p =>
        cases hs
        obtain ⟨t, ht, ha⟩ := h.ndb
        have hdm := h.db d (List.mem_of_getElem? hd)
        refine ⟨fun x hx => ?_, ⟨t ++ [{ prev := p, ch := d.ch }], by rw [ht, List.append_assoc], fun x hx => ?_⟩⟩
        · rcases List.mem_or_eq_of_mem_set hx with hx | rfl
          · exact h.db x hx
          · exact ⟨hdm.ch, hdm.prev, fun n hn => by cases hn; right; omega⟩
        · rcases List.mem_append.1 hx with hx | hx
          · exact ha x hx
          · rw [List.mem_singleton.1 hx]
            exact ⟨hdm.ch, hp p rfl, fun n hn => by cases hn⟩
    · cases hs
      exact h

theorem translate_inv {P : List DInfo} (fuel : Nat) : ∀ {s : Dicts} {p : Nat} {r : Dicts × Option Nat}, ADict P s →
    IsA p → translate fuel s p = .ok r → ADict P r.1 ∧ ∀ n, r.2 = some n → IsA n := by
  induction fuel with
  | zero =>
    intro s p r h hp hr
    unfold translate at hr
    split at hr
    · cases hr; exact ⟨h, fun n hn => by cases hn; exact hp⟩
    · split at hr
      · cases hr
      · rename_i d hd
        split at hr
        · cases hr; exact ⟨h, (h.db d (List.mem_of_getElem? hd)).new⟩
        · cases hr
  | succ fuel ih =>
    intro s p r h hp hr
    unfold translate at hr
    split at hr
    · cases hr; exact ⟨h, fun n hn => by cases hn; exact hp⟩
    · split at hr
      · cases hr
      · rename_i d hd
        have hm := h.db d (List.mem_of_getElem? hd)
        split at hr
        · cases hr; exact ⟨h, hm.new⟩
        · obtain ⟨⟨s1, o⟩, h1, h2⟩ := dbind_inv hr
          obtain ⟨s2, h3, h4⟩ := dbind_inv h2
          cases h4
          obtain ⟨a1, a2⟩ := ih h hm.prev h1
          have a3 := daddCode_inv a1 a2 h3
          refine ⟨a3, fun n hn => ?_⟩
          obtain ⟨x, hx, hn⟩ := Option.bind_eq_some_iff.1 hn
          exact (a3.db x (List.mem_of_getElem? hx)).new n hn

theorem expandLoop_inv {P : List DInfo} (fuel : Nat) : ∀ {s : Dicts} {st : List Nat} {p : Nat}
    {r : Dicts × List Nat × Nat}, ADict P s → (∀ x ∈ st, x = 71) → IsA p → expandLoop fuel s st p = .ok r →
    ADict P r.1 ∧ (∀ x ∈ r.2.1, x = 71) ∧ r.2.2 = 71 := by
  have hF : firstCode = 102 := rfl
  induction fuel with
  | zero =>
    intro s st p r h hst hp hr
    unfold expandLoop at hr
    split at hr
    · cases hr
      exact ⟨h, hst, by unfold IsA at hp; dsimp only; omega⟩
    · split at hr
      · cases hr
      · cases hr
  | succ fuel ih =>
    intro s st p r h hst hp hr
    unfold expandLoop at hr
    split at hr
    · cases hr
      exact ⟨h, hst, by unfold IsA at hp; dsimp only; omega⟩
    · cases hd : s.1[p - firstCode]? with
      | none => rw [hd] at hr; cases hr
      | some d =>
        rw [hd] at hr
        dsimp only at hr
        have hm := h.db d (List.mem_of_getElem? hd)
        have hst' : ∀ x ∈ d.ch :: st, x = 71 := by
          intro x hx
          rcases List.mem_cons.1 hx with rfl | hx
          · exact hm.ch
          · exact hst x hx
        split at hr
        · exact ih h hst' hm.prev hr
        · obtain ⟨⟨s2, o⟩, h3, h4⟩ := dbind_inv hr
          obtain ⟨s3, h5, h6⟩ := dbind_inv h4
          obtain ⟨a1, a2⟩ := translate_inv _ h hm.prev h3
          exact ih (daddCode_inv a1 a2 h5) hst' hm.prev h6

theorem register_inv {P : List DInfo} {s s' : Dicts} {prev : Option Nat} {u : Bool} (h : ADict P s)
    (hp : ∀ q, prev = some q → IsA q) (hr : register s prev 71 u = .ok s') : ADict P s' := by
  have hF : firstCode = 102 := rfl
  unfold register at hr
  cases prev with
  | none => cases hr; exact h
  | some q =>
    dsimp only at hr
    have h1 : ADict P (s.1 ++ [{ prev := q, ch := 71 }], s.2) := by
      refine ⟨fun x hx => ?_, h.ndb⟩
      rcases List.mem_append.1 hx with hx | hx
      · exact h.db x hx
      · rw [List.mem_singleton.1 hx]; exact ⟨rfl, hp q rfl, fun n hn => by cases hn⟩
    split at hr
    · obtain ⟨⟨s2, o⟩, h3, h4⟩ := dbind_inv hr
      cases h4
      exact (translate_inv _ h1 (.inr (by omega)) h3).1
    · cases hr; exact h1

/-- The decompressor inside the text of `a`. -/
structure ADec (P : List DInfo) (d : Dec) : Prop where
  inv : ADict P (d.db, d.ndb)
  prev : ∀ q, d.prev = some q → IsA q ∧ d.firstChar = some 71
  ready : ∀ x ∈ d.ready, x = 71
  len : d.utf8len = 0

theorem expand_inv {P : List DInfo} {d : Dec} {cc : Nat} {r : Nat × Dec} (h : ADec P d) (hc : IsA cc)
    (hr : expand d cc = .ok r) : r.1 = 71 ∧ ADec P r.2 ∧ r.2.inp = d.inp := by
  unfold expand at hr
  dsimp only at hr
  split at hr
  · cases hf : d.firstChar with
    | none => rw [hf] at hr; cases hr
    | some f =>
      cases hq : d.prev with
      | none => rw [hf, hq] at hr; cases hr
      | some q =>
        rw [hf, hq] at hr
        dsimp only at hr
        obtain ⟨hA, hf'⟩ := h.prev q hq
        rw [hf] at hf'
        cases hf'
        obtain ⟨⟨s, st, p⟩, h1, h2⟩ := dbind_inv hr
        obtain ⟨s2, h3, h4⟩ := dbind_inv h2
        obtain ⟨a1, a2, a3⟩ := expandLoop_inv _ h.inv (fun x hx => List.mem_singleton.1 hx) hA h1
        dsimp only at a1 a2 a3 h3
        subst a3
        have a4 := register_inv a1 (fun q' hq' => by cases hq'; exact hA) h3
        cases h4
        exact ⟨rfl, ⟨a4, (fun q' hq' => by cases hq'; exact ⟨hc, rfl⟩), a2, h.len⟩, rfl⟩
  · split at hr
    · cases hr
    · obtain ⟨⟨s, st, p⟩, h1, h2⟩ := dbind_inv hr
      obtain ⟨s2, h3, h4⟩ := dbind_inv h2
      obtain ⟨a1, a2, a3⟩ := expandLoop_inv _ h.inv (fun x hx => by cases hx) hc h1
      dsimp only at a1 a2 a3 h3
      subst a3
      have a4 := register_inv a1 (fun q hq => (h.prev q hq).1) h3
      cases h4
      exact ⟨rfl, ⟨a4, (fun q' hq' => by cases hq'; exact ⟨hc, rfl⟩), a2, h.len⟩, rfl⟩

/-- The bytes of codes. -/
def wrs (l : List Nat) : Bytes := l.flatMap wr

/-- A code of the text. -/
def ACode (p : Nat) : Prop := IsA p ∧ p < optimizeCode

/-- One code of the text. -/
theorem step_code {P : List DInfo} {d : Dec} {cc : Nat} {rest : Bytes} {fuel : Nat} {r : Nat × Dec} (h : ADec P d)
    (hr : d.ready = []) (hi : d.inp = wr cc ++ rest) (hc : ACode cc) (hd : decompress (fuel + 1) d = .ok r) :
    r.1 = 71 ∧ ADec P r.2 ∧ r.2.inp = rest := by
  have hfo : optimizeCode < flushCode := by decide
  have hl : cc < optimizeCode := hc.2
  rw [decompress_nil hr, hi, readCode_wr (by omega), if_neg (show ¬ cc = flushCode by omega),
    if_neg (show ¬ cc = optimizeCode by omega)] at hd
  exact expand_inv (d := { d with inp := rest }) ⟨h.inv, h.prev, h.ready, h.len⟩ hc.1 hd

/-- A symbol that was prepared. -/
theorem step_ready {P : List DInfo} {d : Dec} {c : Nat} {l : List Nat} {fuel : Nat} (h : ADec P d)
    (hr : d.ready = c :: l) : decompress fuel d = .ok (71, { d with ready := l }) ∧ ADec P { d with ready := l } := by
  have hc := h.ready c (by rw [hr]; exact List.mem_cons_self)
  subst hc
  refine ⟨?_, ⟨h.inv, h.prev, fun x hx => h.ready x (by rw [hr]; exact List.mem_cons_of_mem _ hx), h.len⟩⟩
  rw [decompress.eq_def]
  dsimp only
  rw [hr]

theorem get_of_decomp {d : Dec} {r : Nat × Dec} (h : Compr.get d = .ok r) : ∃ x, decomp d = .ok x ∧
    (x.2.utf8len = 0 → (5 ≤ x.1 → x.1 < 102 → r = (x.1 + 26, x.2)) ∧ (x.1 = 255 → r = (255, x.2))) := by
  unfold Compr.get at h
  obtain ⟨⟨c, e⟩, h1, h2⟩ := dbind_inv h
  refine ⟨_, h1, fun a1 => ?_⟩
  dsimp only at a1 h2 ⊢
  rw [if_neg (by rw [a1]; simp)] at h2
  refine ⟨fun a2 a3 => ?_, fun a2 => ?_⟩
  · rw [if_neg (by omega), if_neg (by omega), if_neg (by omega), if_neg (by omega),
      if_neg (by omega), Nat.mod_eq_of_lt (by have : codeShift = 26 := rfl; omega)] at h2
    cases h2
    rfl
  · rw [if_pos a2] at h2
    cases h2
    rfl

theorem wrs_cons (c : Nat) (l : List Nat) : wrs (c :: l) = wr c ++ wrs l := rfl

theorem getAll_inv {n : Nat} {d : Dec} {r : Bytes × Dec} (h : getAll n d = .ok r) : ∃ m x, n = m + 1 ∧
    Compr.get d = .ok x ∧ ((x.1 = 255 ∧ r.1 = []) ∨ (x.1 ≠ 255 ∧ ∃ y, getAll m x.2 = .ok y ∧ r.1 = x.1 :: y.1)) := by
  cases n with
  | zero => cases h
  | succ m =>
    unfold getAll at h
    obtain ⟨⟨c, e⟩, h1, h2⟩ := dbind_inv h
    refine ⟨m, (c, e), rfl, h1, ?_⟩
    dsimp only at h2 ⊢
    split at h2
    · cases h2
      exact .inl ⟨‹_›, rfl⟩
    · obtain ⟨y, h3, h4⟩ := dbind_inv h2
      cases h4
      exact .inr ⟨‹_›, y, h3, rfl⟩

theorem decompress_zero {d : Dec} (hr : d.ready = []) : decompress 0 d =
    if (readCode d.inp).1 = flushCode then .ok (255, { d with inp := (readCode d.inp).2, db := [], prev := none })
    else if (readCode d.inp).1 = optimizeCode then .fuel
    else expand { d with inp := (readCode d.inp).2 } (readCode d.inp).1 := by
  obtain ⟨db, ready, fc, prev, ndb, u, inp⟩ := d
  dsimp only at hr
  subst hr
  rw [decompress.eq_def]

/-- A stream of a text of `a` read by a decompressor with nothing prepared, or with such a dictionary. -/
theorem decompress_only {fuel : Nat} : ∀ {d : Dec} {codes : List Nat} {r : Nat × Dec}, ADec [] d →
    d.inp = wrs codes ++ wr flushCode → (∀ c ∈ codes, ACode c ∨ c = optimizeCode) → decompress fuel d = .ok r →
    (r.1 = 255 ∧ r.2.utf8len = 0) ∨ (r.1 = 71 ∧ ADec [] r.2 ∧ ∃ cs, r.2.inp = wrs cs ++ wr flushCode ∧
      ∀ c ∈ cs, ACode c ∨ c = optimizeCode) := by
  have hfo : ¬ optimizeCode = flushCode := by decide
  induction fuel with
  | zero =>
    intro d codes r h hi hc hr
    cases hd : d.ready with
    | cons x l =>
      obtain ⟨a1, a2⟩ := step_ready (fuel := 0) h hd
      rw [a1] at hr
      cases hr
      exact .inr ⟨rfl, a2, codes, hi, hc⟩
    | nil =>
      cases codes with
      | nil =>
        rw [decompress_zero hd, hi, show wrs [] ++ wr flushCode = wr flushCode ++ [] by decide,
          readCode_wr (Nat.le_refl _), if_pos rfl] at hr
        cases hr
        exact .inl ⟨rfl, h.len⟩
      | cons c codes =>
        have hcc := hc c List.mem_cons_self
        rw [decompress_zero hd, hi, wrs_cons, List.append_assoc] at hr
        have hcle : c ≤ flushCode ∧ c ≠ flushCode := by
          have : optimizeCode < flushCode := by decide
          rcases hcc with hcc | hcc
          · have := hcc.2; omega
          · omega
        rw [readCode_wr hcle.1, if_neg hcle.2] at hr
        split at hr
        · cases hr
        · rename_i hno
          rcases hcc with hcc | hcc
          · obtain ⟨b1, b2, b3⟩ := expand_inv (d := { d with inp := wrs codes ++ wr flushCode })
              ⟨h.inv, h.prev, h.ready, h.len⟩ hcc.1 hr
            exact .inr ⟨b1, b2, codes, b3, fun c hc' => hc c (List.mem_cons_of_mem _ hc')⟩
          · exact absurd hcc hno
  | succ fuel ih =>
    intro d codes r h hi hc hr
    cases hd : d.ready with
    | cons x l =>
      obtain ⟨a1, a2⟩ := step_ready (fuel := fuel + 1) h hd
      rw [a1] at hr
      cases hr
      exact .inr ⟨rfl, a2, codes, hi, hc⟩
    | nil =>
      cases codes with
      | nil =>
        rw [decompress_nil hd, hi, show wrs [] ++ wr flushCode = wr flushCode ++ [] by decide,
          readCode_wr (Nat.le_refl _), if_pos rfl] at hr
        cases hr
        exact .inl ⟨rfl, h.len⟩
      | cons c codes =>
        have hc' := fun c' h' => hc c' (List.mem_cons_of_mem c h')
        rcases hc c List.mem_cons_self with hcc | hcc
        · rw [wrs_cons, List.append_assoc] at hi
          obtain ⟨b1, b2, b3⟩ := step_code h hd hi hcc hr
          exact .inr ⟨b1, b2, codes, b3, hc'⟩
        · subst hcc
          rw [decompress_nil hd, hi, wrs_cons, List.append_assoc, readCode_wr (by decide), if_neg hfo, if_pos rfl] at hr
          obtain ⟨t, t1, t2⟩ := h.inv.ndb
          exact ih (d := { d with inp := wrs codes ++ wr flushCode, db := d.ndb, ndb := [], prev := none })
            ⟨⟨(fun x hx => t2 x (by rw [show d.ndb = t from t1] at hx; exact hx)), ⟨[], rfl, fun x hx => by cases hx⟩⟩,
              (fun q hq => by cases hq), h.ready, h.len⟩ rfl hc' hr

theorem getAll_only (n : Nat) : ∀ {d : Dec} {codes : List Nat} {r : Bytes × Dec}, ADec [] d →
    d.inp = wrs codes ++ wr flushCode → (∀ c ∈ codes, ACode c ∨ c = optimizeCode) → getAll n d = .ok r →
    ∀ b ∈ r.1, b = 97 := by
  induction n with
  | zero => intro d codes r _ _ _ hr; cases hr
  | succ n ih =>
    intro d codes r h hi hc hr
    obtain ⟨m, x, e, h1, h2⟩ := getAll_inv hr
    cases e
    obtain ⟨y, h3, h4⟩ := get_of_decomp h1
    rcases decompress_only h hi hc h3 with ⟨a1, a2⟩ | ⟨a1, a2, cs, a3, a4⟩
    · have hx := (h4 a2).2 a1
      rcases h2 with ⟨_, h5⟩ | ⟨h5, _⟩
      · rw [h5]; intro b hb; cases hb
      · rw [hx] at h5; exact absurd rfl h5
    · have hx := (h4 a2.len).1 (by omega) (by omega)
      rw [a1] at hx
      subst hx
      rcases h2 with ⟨h5, _⟩ | ⟨_, z, h5, h6⟩
      · cases h5
      · rw [h6]
        intro b hb
        rcases List.mem_cons.1 hb with rfl | hb
        · rfl
        · exact ih a2 a3 a4 h5 b hb

/-- The same stream read by a decompressor that has `bb` prepared: where the replaced dictionary is used, `b` appears. -/
theorem getAll_left (n : Nat) : ∀ {d : Dec} {codes : List Nat} {rest : Bytes} {r : Bytes × Dec},
    ADec [{ prev := 72, ch := 72 }] d → d.inp = wrs codes ++ (wr optimizeCode ++ (wr 102 ++ rest)) →
    (∀ c ∈ codes, ACode c) → getAll n d = .ok r → 98 ∈ r.1 := by
  induction n with
  | zero => intro d codes rest r _ _ _ hr; cases hr
  | succ n ih =>
    intro d codes rest r h hi hc hr
    obtain ⟨m, x, e, h1, h2⟩ := getAll_inv hr
    cases e
    obtain ⟨y, h3, h4⟩ := get_of_decomp h1
    have cont : y.1 = 71 → ADec [{ prev := 72, ch := 72 }] y.2 → (∃ cs, y.2.inp = wrs cs ++ (wr optimizeCode ++ (wr 102 ++ rest)) ∧
        ∀ c ∈ cs, ACode c) → 98 ∈ r.1 := by
      intro a1 a2 ⟨cs, a3, a4⟩
      have hx := (h4 a2.len).1 (by omega) (by omega)
      rw [a1] at hx
      subst hx
      rcases h2 with ⟨h5, _⟩ | ⟨_, z, h5, h6⟩
      · cases h5
      · rw [h6]
        exact List.mem_cons_of_mem _ (ih a2 a3 a4 h5)
    cases hd : d.ready with
    | cons c l =>
      obtain ⟨a1, a2⟩ := step_ready (fuel := d.inp.length + 1) h hd
      rw [decomp, a1] at h3
      cases h3
      exact cont rfl a2 ⟨codes, hi, hc⟩
    | nil =>
      cases codes with
      | cons c codes =>
        rw [wrs_cons, List.append_assoc] at hi
        obtain ⟨b1, b2, b3⟩ := step_code h hd hi (hc c List.mem_cons_self) h3
        exact cont b1 b2 ⟨codes, b3, fun c' h' => hc c' (List.mem_cons_of_mem _ h')⟩
      | nil =>
        have hi : d.inp = wr optimizeCode ++ (wr 102 ++ rest) := hi
        obtain ⟨t, t1, _⟩ := h.inv.ndb
        have t1 : d.ndb = { prev := 72, ch := 72 } :: t := t1
        have hlen : d.inp.length = d.inp.length - 1 + 1 := by
          rw [hi, List.length_append]
          have : (wr optimizeCode).length = 2 := by decide
          omega
        rw [decomp, decompress_nil hd, hi, readCode_wr (by decide), if_neg (show ¬ optimizeCode = flushCode by decide), if_pos rfl, ← hi,
          hlen,
          decompress_nil (by exact hd)] at h3
        dsimp only at h3
        rw [readCode_wr (by decide), if_neg (show ¬ 102 = flushCode by decide),
          if_neg (show ¬ 102 = optimizeCode by decide), t1] at h3
        have hy : y.1 = 72 ∧ y.2.utf8len = 0 := by
          unfold expand at h3
          dsimp only at h3
          rw [if_neg (by rw [List.length_cons, show firstCode = 102 from rfl]; omega),
            if_neg (by rw [List.length_cons, show firstCode = 102 from rfl]; omega)] at h3
          obtain ⟨⟨s, st, p⟩, g1, g2⟩ := dbind_inv h3
          obtain ⟨s2, g3, g4⟩ := dbind_inv g2
          cases g4
          refine ⟨?_, h.len⟩
          rw [List.length_cons] at g1
          cases g1
          rfl
        have hx := (h4 hy.2).1 (by omega) (by omega)
        rw [hy.1] at hx
        subst hx
        rcases h2 with ⟨h5, _⟩ | ⟨_, z, h5, h6⟩
        · cases h5
        · rw [h6]
          exact List.mem_cons_self

/-- The codes before the replacement. -/
def longCodes : List Nat := (List.range mfull).map anode ++ [maxCode - 1]

theorem longOut_wrs : longOut = wrs longCodes ++ wr optimizeCode := by
  unfold longOut wrs longCodes aout
  rw [List.flatMap_append, List.flatMap_map, List.append_assoc]
  simp

theorem longCodes_ok : ∀ c ∈ longCodes, ACode c := by
  have hM : maxCode = 32893 := by decide
  have hO : optimizeCode = 32894 := by decide
  have hF : mfull = 32792 := by decide
  intro c hc
  rcases List.mem_append.1 hc with hc | hc
  · obtain ⟨j, hj, rfl⟩ := List.mem_map.1 hc
    have := List.mem_range.1 hj
    cases j with
    | zero => exact ⟨.inl rfl, by decide⟩
    | succ j =>
      have e : anode (j + 1) = 102 + j := rfl
      unfold ACode IsA
      omega
  · rw [List.mem_singleton.1 hc]
    unfold ACode IsA
    omega

/-- A new compressor, the long text of `a`, one more `a`. -/
theorem long_one : compressAll (as (3 + longLen) ++ [97]) = .ok (longOut ++ (wr 102 ++ wr flushCode)) := by
  obtain ⟨t, k, h1, h2⟩ := arun_replace (aaa_run [] 102)
  have h3 : putAll {} (as (3 + longLen)) = .ok (replacedComp ([] ++ [((71, 71), { next := 102 })]) t k ([] ++ longOut)) := by
    rw [as_add, putAll_append _ _ _ (aaaComp [] 102) (by rfl), h2]
  have ho : OptOk (replacedComp ([] ++ [((71, 71), { next := 102 })]) t k ([] ++ longOut)) := by
    refine ⟨fun e he hue => ?_, fun _ _ hn => by cases hn⟩
    rcases List.mem_append.1 (show e ∈ ([] ++ [((71, 71), { next := 102 })]) ++ t from he) with he | he
    · rw [List.mem_singleton.1 he] at hue; cases hue
    · rw [(h1 e he).2] at hue; cases hue
  have hf : cfind (replacedComp ([] ++ [((71, 71), { next := 102 })]) t k ([] ++ longOut)).db (71, 71) =
      some { next := 102 } := by
    have e : cfind ([] ++ [((71, 71), ({ next := 102 } : Info))]) (71, 71) = some { next := 102 } := by decide
    exact cfind_first (t := t) e
  obtain ⟨c, a1, a2, a3⟩ := sym_some ho (by decide) rfl hf (by decide)
  unfold compressAll
  rw [putAll_append _ _ _ _ h3, show [97] = as 1 from rfl, put_one rfl a1, Res.bind_ok, finish, a2]
  show Res.ok ((c.out ++ wr 102) ++ wr flushCode) = _
  rw [a3, List.append_assoc]
  generalize wr 102 ++ wr flushCode = x
  generalize longOut = y
  rfl

/-- The decompressor after the text `bbbb`. -/
def bDec (inp : Bytes) : Dec := { firstChar := some 72, ndb := [{ prev := 72, ch := 72 }], inp := inp }

theorem get_sym {d d' : Dec} {c : Nat} (h : decomp d = .ok (c, d')) (h1 : d'.utf8len = 0) (h2 : 5 ≤ c) (h3 : c < 102) :
    Compr.get d = .ok (c + 26, d') := by
  unfold Compr.get
  rw [h, Res.bind_ok]
  dsimp only
  rw [if_neg (by rw [h1]; simp), if_neg (by omega), if_neg (by omega), if_neg (by omega), if_neg (by omega),
      if_neg (by omega), Nat.mod_eq_of_lt (by have : codeShift = 26 := rfl; omega)]
  rfl

theorem get_code {d d' : Dec} {c cc : Nat} {rest : Bytes} (hr : d.ready = []) (hi : readCode d.inp = (cc, rest))
    (hc : cc < optimizeCode) (he : expand { d with inp := rest } cc = .ok (c, d')) (h1 : d'.utf8len = 0) (h2 : 5 ≤ c)
    (h3 : c < 102) : Compr.get d = .ok (c + 26, d') := by
  have hfo : optimizeCode < flushCode := by decide
  refine get_sym ?_ h1 h2 h3
  rw [decomp, decompress_nil hr, hi, if_neg (show ¬ cc = flushCode by omega),
    if_neg (show ¬ cc = optimizeCode by omega), he]

theorem get_ready {d : Dec} {c : Nat} {l : List Nat} (hr : d.ready = c :: l) (h1 : d.utf8len = 0) (h2 : 5 ≤ c)
    (h3 : c < 102) : Compr.get d = .ok (c + 26, { d with ready := l }) := by
  refine get_sym ?_ h1 h2 h3
  rw [decomp, decompress.eq_def]
  dsimp only
  rw [hr]

theorem get_end {d : Dec} {rest : Bytes} (hr : d.ready = []) (hi : readCode d.inp = (flushCode, rest))
    (h1 : d.utf8len = 0) : Compr.get d = .ok (255, { d with inp := rest, db := [], prev := none }) := by
  unfold Compr.get
  rw [decomp, decompress_nil hr, hi, if_pos rfl, Res.bind_ok]
  dsimp only
  rw [if_neg (by rw [h1]; simp), if_pos rfl]

/-- The decompressor inside `bbbb`. -/
def bMid (db ndb : List DInfo) (ready : List Nat) (prev : Nat) (inp : Bytes) : Dec :=
  { db := db, ready := ready, firstChar := some 72, prev := some prev, ndb := ndb, inp := inp }

/-- The entry of `bb`, used. -/
def bEnt : DInfo := { prev := 72, ch := 72, new := some 102, used := true }

theorem b_first (s : Bytes) : getAll 5 { inp := [72, 102, 72, 255, 255] ++ s } = .ok ([98, 98, 98, 98], bDec s) := by
  have e1 : Compr.get { inp := [72, 102, 72, 255, 255] ++ s } = .ok (98, bMid [] [] [] 72 ([102, 72, 255, 255] ++ s)) :=
    get_code (c := 72) (cc := 72) rfl (readCode_wr (q := 72) (by decide) _) (by decide) rfl rfl (by decide) (by decide)
  have e2 : Compr.get (bMid [] [] [] 72 ([102, 72, 255, 255] ++ s)) =
      .ok (98, bMid [bEnt] [{ prev := 72, ch := 72 }] [72] 102 ([72, 255, 255] ++ s)) :=
    get_code (c := 72) (cc := 102) rfl (readCode_wr (q := 102) (by decide) _) (by decide) rfl rfl (by decide) (by decide)
  have e3 : Compr.get (bMid [bEnt] [{ prev := 72, ch := 72 }] [72] 102 ([72, 255, 255] ++ s)) =
      .ok (98, bMid [bEnt] [{ prev := 72, ch := 72 }] [] 102 ([72, 255, 255] ++ s)) :=
    get_ready (c := 72) rfl rfl (by decide) (by decide)
  have e4 : Compr.get (bMid [bEnt] [{ prev := 72, ch := 72 }] [] 102 ([72, 255, 255] ++ s)) =
      .ok (98, bMid [bEnt, { prev := 102, ch := 72 }] [{ prev := 72, ch := 72 }] [] 72 ([255, 255] ++ s)) :=
    get_code (c := 72) (cc := 72) rfl (readCode_wr (q := 72) (by decide) _) (by decide) rfl rfl (by decide) (by decide)
  have e5 : Compr.get (bMid [bEnt, { prev := 102, ch := 72 }] [{ prev := 72, ch := 72 }] [] 72 ([255, 255] ++ s)) =
      .ok (255, bDec s) := get_end rfl (readCode_wr (q := flushCode) (Nat.le_refl _) s) rfl
  have f5 : ∀ k, getAll (k + 1) (bMid [bEnt, { prev := 102, ch := 72 }] [{ prev := 72, ch := 72 }] [] 72 ([255, 255] ++ s)) =
      .ok ([], bDec s) := by
    intro k
    rw [getAll, e5, Res.bind_ok]
    rfl
  rw [getAll_step' e1 (by decide), getAll_step' e2 (by decide), getAll_step' e3 (by decide), getAll_step' e4 (by decide), f5]
  rfl

/-- **C92 violated.** Two whole texts, each compressed by a new compressor, read by one decompressor: the first is
`bbbb`, the second is a text of `a` only, long enough to fill the dictionary. The first is read. The second, which a new
decompressor reads, is never read: whatever is returned has a `b`. -/
theorem C92_violation_texts : ∃ t s : Bytes, compressAll [98, 98, 98, 98] = .ok [72, 102, 72, 255, 255] ∧
    compressAll t = .ok s ∧ (∀ b ∈ t, b = 97) ∧ (∃ d, getAll (t.length + 1) { inp := s } = .ok (t, d)) ∧
    getAll 5 { inp := [72, 102, 72, 255, 255] ++ s } = .ok ([98, 98, 98, 98], bDec s) ∧
    ∀ n l d, getAll n (bDec s) = .ok (l, d) → 98 ∈ l := by
  have ht : ∀ b ∈ as (3 + longLen) ++ [97], b = 97 := by
    intro b hb
    rcases List.mem_append.1 hb with hb | hb
    · exact List.eq_of_mem_replicate hb
    · exact List.mem_singleton.1 hb
  have hu : ∀ l : Bytes, (∀ b ∈ l, b = 97) → Spec.WellFormedUtf8 l := by
    intro l
    induction l with
    | nil => exact fun _ => .nil
    | cons b l ih =>
      intro h
      refine .one ?_ (ih fun b hb => h b (List.mem_cons_of_mem _ hb))
      rw [h b List.mem_cons_self]
      exact ⟨by decide, by decide⟩
  refine ⟨as (3 + longLen) ++ [97], _, by decide +kernel, long_one, ht, ?_, ?_, ?_⟩
  · obtain ⟨out, d, h1, h2⟩ := C50_round_trip _ (hu _ ht) (fun b hb => by rw [ht b hb]; decide)
    rw [long_one] at h1
    rw [← Res.ok.inj h1] at h2
    exact ⟨d, h2⟩
  · exact b_first _
  · intro n l d h
    refine getAll_left n (codes := longCodes) (rest := wr flushCode) (r := (l, d)) ?_ ?_ longCodes_ok h
    · exact ⟨⟨(fun x hx => by cases hx), ⟨[], rfl, fun x hx => by cases hx⟩⟩, (fun q hq => by cases hq),
        (fun x hx => by cases hx), rfl⟩
    · show longOut ++ (wr 102 ++ wr flushCode) = _
      rw [longOut_wrs, List.append_assoc]

/-- **C123 violated.** What a compressor writes after `bbbb` and reset is not the text: a new decompressor never returns
the `b` the text ends with. -/
theorem C123_violation_lost : ∃ t s : Bytes, afterReset [98, 98, 98, 98] t = .ok s ∧ 98 ∈ t ∧
    ∀ n l d, getAll n { inp := s } = .ok (l, d) → ∀ b ∈ l, b = 97 := by
  refine ⟨as (3 + longLen) ++ [98, 98], _, long_reset, List.mem_append_right _ (by decide), fun n l d h => ?_⟩
  refine getAll_only n (codes := longCodes ++ (optimizeCode :: [71, 102])) (r := (l, d)) ?_ ?_ ?_ h
  · exact ⟨⟨(fun x hx => by cases hx), ⟨[], rfl, fun x hx => by cases hx⟩⟩, (fun q hq => by cases hq),
      (fun x hx => by cases hx), rfl⟩
  · show longOut ++ [71, 102, 255, 255] = _
    rw [longOut_wrs, wrs, wrs, List.flatMap_append, List.flatMap_cons, List.append_assoc, List.append_assoc,
      List.append_assoc]
    generalize longCodes.flatMap wr = y
    rfl
  · intro c hc
    rcases List.mem_append.1 hc with hc | hc
    · exact .inl (longCodes_ok c hc)
    · rcases List.mem_cons.1 hc with rfl | hc
      · exact .inr rfl
      · left
        rcases List.mem_cons.1 hc with rfl | hc
        · exact ⟨.inl rfl, by decide⟩
        · rw [List.mem_singleton.1 hc]
          exact ⟨.inr (Nat.le_refl _), by decide⟩

end Imt.Props
