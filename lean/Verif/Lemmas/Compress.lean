import Verif.Model.Compress
/-!
# Dictionaries of the stream compressor: marking of used sequences
-/
namespace Imt.Compr
open Imt

/-! ### Marks -/

/-- The code of `q` in the dictionary under construction. -/
def newOf (s : Dicts) (q : Nat) : Option Nat := if q < firstCode then some q else (s.1[q - firstCode]?).bind (·.new)

/-- There is no room in the dictionary under construction. -/
def Full (s : Dicts) : Prop := ¬ (s.2.length + firstCode < maxCodeForOptimize)

instance (s : Dicts) : Decidable (Full s) := inferInstanceAs (Decidable (¬ _))

/-- Mark one entry as used. -/
def mark (s : Dicts) (i : Nat) : Dicts :=
  match s.1[i]? with
  | none => s
  | some d =>
    if d.used = true ∨ Full s then s
    else (s.1.set i { d with used := true, new := some (s.2.length + firstCode) },
      s.2 ++ [{ prev := (newOf s d.prev).getD 0, ch := d.ch }])

/-- Mark entries in order. -/
def markPath (s : Dicts) (is : List Nat) : Dicts := is.foldl mark s

/-- Entries on the way to code `q`, its first symbol and the following symbols. -/
inductive Path (V : List DInfo) : Nat → List Nat → Nat → List Nat → Prop
  | root {c : Nat} : c < firstCode → Path V c [] c []
  | step {i : Nat} {d : DInfo} {is : List Nat} {c : Nat} {syms : List Nat} : V[i]? = some d → Path V d.prev is c syms →
      Path V (i + firstCode) (is ++ [i]) c (syms ++ [d.ch])

/-- Previous codes and characters. -/
def shape (V : List DInfo) : List (Nat × Nat) := V.map (fun d => (d.prev, d.ch))

/-- Previous codes are smaller, characters are symbols. -/
def WF (V : List DInfo) : Prop := ∀ i d, V[i]? = some d → d.prev < i + firstCode ∧ d.ch < firstCode

/-- Invariant of the dictionaries (memory safety). -/
structure InvD (s : Dicts) : Prop where
  wf : WF s.1
  wfn : WF s.2
  flags : ∀ (i : Nat) d, s.1[i]? = some d → d.used = d.new.isSome
  clean : ∀ d ∈ s.2, d.used = false ∧ d.new = none
  closed : ∀ (i : Nat) d, s.1[i]? = some d → d.used = true → (newOf s d.prev).isSome = true
  range : ∀ (i : Nat) d n, s.1[i]? = some d → d.new = some n → firstCode ≤ n ∧ n < s.2.length + firstCode

theorem shape_get {V W : List DInfo} (h : shape V = shape W) {i : Nat} {d : DInfo} (hd : V[i]? = some d) :
    ∃ e, W[i]? = some e ∧ e.prev = d.prev ∧ e.ch = d.ch := by
  have h1 : (shape V)[i]? = some (d.prev, d.ch) := by simp [shape, hd]
  rw [h] at h1
  simp only [shape, List.getElem?_map, Option.map_eq_some_iff] at h1
  obtain ⟨e, he, h2⟩ := h1
  exact ⟨e, he, congrArg (·.1) h2, congrArg (·.2) h2⟩

theorem Path.congr {V W : List DInfo} (h : shape V = shape W) {q c : Nat} {is syms : List Nat} (hp : Path V q is c syms) :
    Path W q is c syms := by
  induction hp with
  | root hc => exact .root hc
  | step hd _ ih =>
    obtain ⟨e, he, h1, h2⟩ := shape_get h hd
    rw [← h2]
    exact .step he (h1 ▸ ih)

theorem shape_mark (s : Dicts) (i : Nat) : shape (mark s i).1 = shape s.1 := by
  unfold mark
  cases h : s.1[i]? with
  | none => rfl
  | some d =>
    dsimp only
    split
    · rfl
    · simp only [shape, List.map_set]
      apply List.ext_getElem?
      intro j
      rw [List.getElem?_set]
      split
      · rename_i hj
        subst hj
        have hl : i < s.1.length := by
          rw [List.getElem?_eq_some_iff] at h; exact h.1
        simp [hl, List.getElem?_eq_some_iff.1 h |>.2]
      · rfl

theorem shape_markPath (is : List Nat) : ∀ (s : Dicts), shape (markPath s is).1 = shape s.1 := by
  induction is with
  | nil => exact fun _ => rfl
  | cons i is ih => intro s; exact (ih (mark s i)).trans (shape_mark s i)

theorem shape_length {V W : List DInfo} (h : shape V = shape W) : V.length = W.length := by
  have := congrArg List.length h
  simpa [shape] using this

theorem WF.congr {V W : List DInfo} (h : shape V = shape W) (hw : WF V) : WF W := by
  intro i d hd
  obtain ⟨e, he, h1, h2⟩ := shape_get h.symm hd
  rw [← h1, ← h2]
  exact hw i e he

theorem markPath_append (s : Dicts) (a b : List Nat) : markPath s (a ++ b) = markPath (markPath s a) b := List.foldl_append

theorem mark_full {s : Dicts} (h : Full s) (i : Nat) : mark s i = s := by
  unfold mark
  split
  · rfl
  · rw [if_pos (.inr h)]

theorem markPath_full {s : Dicts} (h : Full s) (is : List Nat) : markPath s is = s := by
  induction is with
  | nil => rfl
  | cons i is ih => show markPath (mark s i) is = s; rw [mark_full h]; exact ih

theorem mark_used {s : Dicts} {i : Nat} {d : DInfo} (hd : s.1[i]? = some d) (h : d.used = true) : mark s i = s := by
  unfold mark
  rw [hd]
  dsimp only
  rw [if_pos (.inl h)]

theorem newOf_code {s : Dicts} {i : Nat} : newOf s (i + firstCode) = (s.1[i]?).bind (·.new) := by
  unfold newOf
  rw [if_neg (by omega), Nat.add_sub_cancel]

theorem InvD.used_of_new {s : Dicts} (h : InvD s) {i : Nat} {d : DInfo} (hd : s.1[i]? = some d)
    (hn : (newOf s (i + firstCode)).isSome = true) : d.used = true := by
  rw [newOf_code, hd] at hn
  rw [h.flags i d hd]
  exact hn

/-- Marking the way to a code already used changes nothing. -/
theorem markPath_used {s : Dicts} (h : InvD s) {q c : Nat} {is syms : List Nat} (hp : Path s.1 q is c syms)
    (hn : (newOf s q).isSome = true) : markPath s is = s := by
  induction hp with
  | root _ => rfl
  | step hd _ ih =>
    have hu := h.used_of_new hd hn
    rw [markPath_append, ih (h.closed _ _ hd hu)]
    exact mark_used hd hu

theorem mark_new {s : Dicts} {i : Nat} {d : DInfo} (hd : s.1[i]? = some d) (hu : d.used = false) (hf : ¬ Full s) :
    mark s i = (s.1.set i { d with used := true, new := some (s.2.length + firstCode) },
      s.2 ++ [{ prev := (newOf s d.prev).getD 0, ch := d.ch }]) := by
  unfold mark
  rw [hd]
  dsimp only
  rw [if_neg]
  rintro (hc | hc)
  · rw [hu] at hc; cases hc
  · exact hf hc

theorem newOf_set {s : Dicts} {i : Nat} {d : DInfo} (hd : s.1[i]? = some d) (e : DInfo) (N : List DInfo) (q : Nat) :
    newOf (s.1.set i e, N) q = if q = i + firstCode then e.new else newOf s q := by
  have hl : i < s.1.length := (List.getElem?_eq_some_iff.1 hd).1
  unfold newOf
  by_cases hq : q < firstCode
  · rw [if_pos hq, if_pos hq, if_neg (by omega)]
  · rw [if_neg hq, if_neg hq]
    dsimp only
    rw [List.getElem?_set]
    by_cases he : q = i + firstCode
    · rw [if_pos he, if_pos (by omega)]
      simp [hl]
    · rw [if_neg he, if_neg (by omega)]

/-- Marking an entry whose previous code is marked keeps the invariant; afterwards it is marked or there is no room. -/
theorem mark_inv {s : Dicts} (h : InvD s) {i : Nat} {d : DInfo} (hd : s.1[i]? = some d)
    (hp : (newOf s d.prev).isSome = true ∨ Full s) :
    InvD (mark s i) ∧ ((newOf (mark s i) (i + firstCode)).isSome = true ∨ Full (mark s i)) := by
  by_cases hf : Full s
  · rw [mark_full hf]; exact ⟨h, .inr hf⟩
  cases hu : d.used with
  | true =>
    rw [mark_used hd hu]
    refine ⟨h, .inl ?_⟩
    rw [newOf_code, hd]
    have := h.flags i d hd
    rw [hu] at this
    exact this.symm
  | false =>
    have hp : (newOf s d.prev).isSome = true := hp.resolve_right hf
    have hl : i < s.1.length := (List.getElem?_eq_some_iff.1 hd).1
    obtain ⟨pn, hpn⟩ := Option.isSome_iff_exists.1 hp
    have hwf : WF (mark s i).1 := h.wf.congr (shape_mark s i).symm
    rw [mark_new hd hu hf] at hwf ⊢
    have hnew : ∀ q, (newOf s q).isSome = true → (newOf (s.1.set i { d with used := true, new := some (s.2.length + firstCode) },
        s.2 ++ [{ prev := (newOf s d.prev).getD 0, ch := d.ch }]) q).isSome = true := by
      intro q hq
      rw [newOf_set hd]
      split
      · rfl
      · exact hq
    refine ⟨⟨hwf, ?_, ?_, ?_, ?_, ?_⟩, .inl ?_⟩
    · intro j e he
      rw [List.getElem?_append] at he
      split at he
      · exact h.wfn j e he
      · rename_i hj
        have : j = s.2.length := by
          rw [List.getElem?_eq_some_iff] at he
          obtain ⟨hx, _⟩ := he
          simp at hx
          omega
        subst this
        simp only [Nat.sub_self, List.getElem?_cons_zero, Option.some.injEq] at he
        subst he
        refine ⟨?_, (h.wf i d hd).2⟩
        rw [hpn]
        show pn < _
        unfold newOf at hpn
        split at hpn
        · cases hpn; omega
        · cases hx : s.1[d.prev - firstCode]? with
          | none => rw [hx] at hpn; cases hpn
          | some e =>
            rw [hx] at hpn
            exact (h.range _ e pn hx hpn).2
    · intro j e he
      rw [List.getElem?_set] at he
      split at he
      · cases he; rfl
      · exact h.flags j e he
    · intro e he
      rcases List.mem_append.1 he with he | he
      · exact h.clean e he
      · rw [List.mem_singleton.1 he]; exact ⟨rfl, rfl⟩
    · intro j e he hue
      apply hnew
      rw [List.getElem?_set] at he
      split at he
      · cases he; exact hp
      · exact h.closed j e he hue
    · intro j e n he hn
      rw [List.length_append]
      rw [List.getElem?_set] at he
      split at he
      · cases he; cases hn; simp
      · have := h.range j e n he hn
        exact ⟨this.1, Nat.lt_of_lt_of_le this.2 (by omega)⟩
    · rw [newOf_set hd, if_pos rfl]; rfl

theorem markPath_inv {s : Dicts} (h : InvD s) {q c : Nat} {is syms : List Nat} (hp : Path s.1 q is c syms) :
    InvD (markPath s is) ∧ ((newOf (markPath s is) q).isSome = true ∨ Full (markPath s is)) := by
  induction hp with
  | root hc => exact ⟨h, .inl (by unfold newOf; rw [if_pos hc]; rfl)⟩
  | step hd _ ih =>
    rename_i i d is c syms _
    obtain ⟨e, he, h1, _⟩ := shape_get (shape_markPath is s).symm hd
    rw [markPath_append]
    exact mark_inv ih.1 he (by rw [h1]; exact ih.2)

/-- Marking the way to a code twice is marking it once; also for the way to its previous code. -/
theorem markPath_twice {s : Dicts} (h : InvD s) {q c : Nat} {is syms : List Nat} (hp : Path s.1 q is c syms) :
    markPath (markPath s is) is = markPath s is := by
  obtain ⟨h1, h2⟩ := markPath_inv h hp
  rcases h2 with h2 | h2
  · exact markPath_used h1 (hp.congr (shape_markPath is s).symm) h2
  · exact markPath_full h2 is

theorem markPath_prefix {s : Dicts} (h : InvD s) {i : Nat} {d : DInfo} {is : List Nat} {c : Nat} {syms : List Nat} (hd : s.1[i]? = some d)
    (hp : Path s.1 d.prev is c syms) : markPath (markPath s (is ++ [i])) is = markPath s (is ++ [i]) := by
  obtain ⟨h1, h2⟩ := markPath_inv h (.step hd hp)
  rcases h2 with h2 | h2
  · have hsh := shape_markPath (is ++ [i]) s
    obtain ⟨e, he, e1, _⟩ := shape_get hsh.symm hd
    have hu := h1.used_of_new he h2
    exact markPath_used h1 (hp.congr hsh.symm) (by rw [← e1]; exact h1.closed i e he hu)
  · exact markPath_full h2 is

/-! ### The decompressor marks ways -/

theorem daddCode_eq {s : Dicts} {i : Nat} {d : DInfo} (hd : s.1[i]? = some d) (hu : d.used = false)
    (hp : (newOf s d.prev).isSome = true ∨ Full s) : daddCode s i (newOf s d.prev) = .ok (mark s i) := by
  unfold daddCode
  rw [hd]
  dsimp only
  by_cases hf : Full s
  · rw [mark_full hf, if_neg hf]
  · have hf' : s.2.length + firstCode < maxCodeForOptimize := by
      unfold Full at hf; omega
    rw [if_pos hf', mark_new hd hu hf]
    obtain ⟨pn, hpn⟩ := Option.isSome_iff_exists.1 (hp.resolve_right hf)
    rw [hpn]
    rfl

theorem path_lt {V : List DInfo} {q c : Nat} {is syms : List Nat} (hp : Path V q is c syms) : c < firstCode := by
  induction hp with
  | root h => exact h
  | step _ _ ih => exact ih

theorem not_code_lt {i : Nat} : ¬ (i + firstCode < firstCode) := by omega

theorem translate_eq {s : Dicts} (h : InvD s) {q c : Nat} {is syms : List Nat} (hp : Path s.1 q is c syms) :
    ∀ fuel, is.length ≤ fuel → translate fuel s q = .ok (markPath s is, newOf (markPath s is) q) := by
  induction hp with
  | root hc => intro fuel _; unfold translate newOf; simp [hc, markPath]
  | step hd hp' ih =>
    rename_i i d is c syms
    intro fuel hf
    rw [translate.eq_def]
    dsimp only
    rw [if_neg not_code_lt, Nat.add_sub_cancel, hd]
    dsimp only
    cases hu : d.used with
    | true =>
      have hn : (newOf s (i + firstCode)).isSome = true := by
        rw [newOf_code, hd]
        have := h.flags i d hd
        rw [hu] at this
        exact this.symm
      rw [markPath_used h (.step hd hp') hn, newOf_code, hd]
      rfl
    | false =>
      rw [List.length_append] at hf
      cases fuel with
      | zero => simp at hf
      | succ n =>
        simp only [Bool.false_eq_true, if_false]
        rw [ih n (by simpa using hf)]
        simp only [Res.bind_ok]
        obtain ⟨e, he, h1, _⟩ := shape_get (shape_markPath is s).symm hd
        have hi := markPath_inv h hp'
        rw [markPath_append]
        show (daddCode (markPath s is) i _ >>= _) = Res.ok (mark (markPath s is) i, _)
        cases hue : e.used with
        | false =>
          rw [← h1, daddCode_eq he hue (by rw [h1]; exact hi.2)]
          simp only [Res.bind_ok]
          rw [newOf_code]
          rfl
        | true =>
          -- the entry itself is not on the way to its previous code
          exfalso
          have key : ∀ {q c : Nat} {is syms : List Nat}, Path s.1 q is c syms → q < i + firstCode →
              (markPath s is).1[i]? = s.1[i]? := by
            intro q c is syms hq
            induction hq with
            | root _ => intro _; rfl
            | step hdj _ ihj =>
              rename_i j dj isj _ _ _
              intro hlt
              have hprev := (h.wf j dj hdj).1
              have h3 := ihj (by omega)
              rw [markPath_append]
              show (mark (markPath s isj) j).1[i]? = _
              rw [← h3]
              unfold mark
              split
              · rfl
              · split
                · rfl
                · dsimp only
                  rw [List.getElem?_set, if_neg (by omega)]
          have := key hp' (h.wf i d hd).1
          rw [he, hd] at this
          cases this
          rw [hu] at hue
          cases hue

theorem mark_other {s : Dicts} {i j : Nat} (h : j ≠ i) : (mark s j).1[i]? = s.1[i]? := by
  unfold mark
  split
  · rfl
  · split
    · rfl
    · dsimp only
      rw [List.getElem?_set, if_neg h]

theorem path_below {V : List DInfo} (hw : WF V) {q c : Nat} {is syms : List Nat} (hp : Path V q is c syms) : ∀ j ∈ is, j + firstCode ≤ q := by
  induction hp with
  | root _ => intro j hj; cases hj
  | step hd _ ih =>
    rename_i i d is c syms _
    intro j hj
    have := (hw i d hd).1
    rcases List.mem_append.1 hj with hj | hj
    · have := ih j hj; omega
    · rw [List.mem_singleton.1 hj]; exact Nat.le_refl _

theorem markPath_other (is : List Nat) (i : Nat) : ∀ (s : Dicts), i ∉ is → (markPath s is).1[i]? = s.1[i]? := by
  induction is with
  | nil => intro s _; rfl
  | cons j is ih =>
    intro s h
    rw [List.mem_cons, not_or] at h
    show (markPath (mark s j) is).1[i]? = _
    rw [ih _ h.2, mark_other (Ne.symm h.1)]

theorem markPath_self {s : Dicts} (h : InvD s) {i : Nat} {d : DInfo} (hd : s.1[i]? = some d) {is : List Nat} {c : Nat} {syms : List Nat}
    (hp : Path s.1 d.prev is c syms) : (markPath s is).1[i]? = some d := by
  rw [markPath_other, hd]
  intro hi
  have h1 := path_below h.wf hp i hi
  have h2 := (h.wf i d hd).1
  omega

theorem markPath_length (s : Dicts) (is : List Nat) : (markPath s is).1.length = s.1.length := shape_length (shape_markPath is s)

/-- Length of a way. -/
theorem path_length {V : List DInfo} (hw : WF V) {q c : Nat} {is syms : List Nat} (hp : Path V q is c syms) :
    is.length ≤ q + 1 - firstCode ∧ syms.length = is.length := by
  induction hp with
  | root _ => exact ⟨Nat.zero_le _, rfl⟩
  | step hd _ ih =>
    rename_i i d is c syms _
    have h1 := (hw i d hd).1
    simp only [List.length_append, List.length_cons, List.length_nil]
    omega

theorem path_lt_len {V : List DInfo} {q c : Nat} {is syms : List Nat} (hp : Path V q is c syms) : q < V.length + firstCode := by
  cases hp with
  | root h => omega
  | step hd _ => have := (List.getElem?_eq_some_iff.1 hd).1; omega

/-- The expansion loop marks the way and gives the symbols. -/
theorem expandLoop_eq {V : List DInfo} {q c : Nat} {is syms : List Nat} (hp : Path V q is c syms) : ∀ (s : Dicts), shape s.1 = shape V →
    InvD s → ∀ fuel, is.length ≤ fuel → ∀ st, expandLoop fuel s st q = .ok (markPath s is, syms ++ st, c) := by
  induction hp with
  | root hc => intro s _ _ fuel _ st; unfold expandLoop; simp [hc, markPath]
  | step hdV hp' ih =>
    rename_i i dV is c syms
    intro s hs h fuel hf st
    obtain ⟨d, hd, d1, d2⟩ := shape_get hs.symm hdV
    have hp : Path s.1 d.prev is c syms := by rw [d1]; exact hp'.congr hs.symm
    rw [expandLoop.eq_def]
    dsimp only
    rw [if_neg not_code_lt, Nat.add_sub_cancel, hd]
    rw [List.length_append] at hf
    cases fuel with
    | zero => simp at hf
    | succ n =>
      dsimp only
      have hlen := path_length h.wf hp
      have hlt := path_lt_len hp
      have hrest : expandLoop n (markPath s (is ++ [i])) (d.ch :: st) d.prev = .ok (markPath s (is ++ [i]), syms ++ [dV.ch] ++ st, c) := by
        rw [d1, ih _ ((shape_markPath _ s).trans hs) (markPath_inv h (.step hd hp)).1 n (by simpa using hf),
          markPath_prefix h hd hp, d2, List.append_assoc]
        rfl
      cases hu : d.used with
      | true =>
        have hn : (newOf s (i + firstCode)).isSome = true := by
          rw [newOf_code, hd]
          have := h.flags i d hd
          rw [hu] at this
          exact this.symm
        rw [markPath_used h (.step hd hp) hn] at hrest ⊢
        exact hrest
      | false =>
        simp only [Bool.false_eq_true, if_false]
        rw [translate_eq h hp _ (by omega)]
        simp only [Res.bind_ok]
        rw [daddCode_eq (markPath_self h hd hp) hu (markPath_inv h hp).2]
        rw [markPath_append] at hrest ⊢
        exact hrest

/-! ### Appending an entry -/

theorem mark_append (V N : List DInfo) (hw : WF V) (i : Nat) (hi : i < V.length) (e : List DInfo) :
    mark (V ++ e, N) i = ((mark (V, N) i).1 ++ e, (mark (V, N) i).2) := by
  unfold mark
  have h1 : (V ++ e)[i]? = V[i]? := List.getElem?_append_left hi
  dsimp only
  rw [h1]
  cases hd : V[i]? with
  | none => rfl
  | some d =>
    dsimp only
    have hf : Full (V ++ e, N) ↔ Full (V, N) := Iff.rfl
    by_cases hc : d.used = true ∨ Full (V, N)
    · rw [if_pos hc, if_pos (by rwa [hf])]
    · rw [if_neg hc, if_neg (by rwa [hf])]
      dsimp only
      rw [List.set_append_left _ _ hi]
      have hp := (hw i d hd).1
      have hn : newOf (V ++ e, N) d.prev = newOf (V, N) d.prev := by
        unfold newOf
        split
        · rfl
        · dsimp only
          rw [List.getElem?_append_left (by omega)]
      rw [hn]

theorem markPath_push (is : List Nat) (e : List DInfo) : ∀ (V N : List DInfo), WF V → (∀ i ∈ is, i < V.length) →
    markPath (V ++ e, N) is = ((markPath (V, N) is).1 ++ e, (markPath (V, N) is).2) := by
  induction is with
  | nil => intro V N _ _; rfl
  | cons i is ih =>
    intro V N hw hi
    show markPath (mark (V ++ e, N) i) is = _
    rw [mark_append V N hw i (hi i List.mem_cons_self) e]
    have hs := shape_mark (V, N) i
    rw [ih _ _ (hw.congr hs.symm) (fun j hj => by rw [shape_length hs]; exact hi j (List.mem_cons_of_mem _ hj))]
    rfl

theorem Path.push {V : List DInfo} (e : List DInfo) {q c : Nat} {is syms : List Nat} (hp : Path V q is c syms) : Path (V ++ e) q is c syms := by
  induction hp with
  | root h => exact .root h
  | step hd _ ih =>
    exact .step (by rw [List.getElem?_append_left (List.getElem?_eq_some_iff.1 hd).1]; exact hd) ih

theorem Path.pop {V e : List DInfo} (hw : WF (V ++ e)) {q c : Nat} {is syms : List Nat} (hp : Path (V ++ e) q is c syms)
    (hq : q < V.length + firstCode) : Path V q is c syms := by
  induction hp with
  | root h => exact .root h
  | step hd _ ih =>
    rename_i i d is c syms _
    have h1 := (hw i d hd).1
    have hi : i < V.length := by omega
    exact .step (by rw [← hd, List.getElem?_append_left hi]) (ih (by omega))

theorem path_idx {V : List DInfo} {q c : Nat} {is syms : List Nat} (hp : Path V q is c syms) : ∀ i ∈ is, i < V.length := by
  induction hp with
  | root _ => intro i hi; cases hi
  | step hd _ ih =>
    intro i hi
    rcases List.mem_append.1 hi with hi | hi
    · exact ih i hi
    · rw [List.mem_singleton.1 hi]; exact (List.getElem?_eq_some_iff.1 hd).1

/-- The way to a code is unique. -/
theorem Path.unique {V : List DInfo} {q c c' : Nat} {is is' syms syms' : List Nat} (hp : Path V q is c syms)
    (hp' : Path V q is' c' syms') : is = is' ∧ c = c' ∧ syms = syms' := by
  induction hp generalizing is' c' syms' with
  | root h =>
    cases hp' with
    | root => exact ⟨rfl, rfl, rfl⟩
    | step => exact absurd h not_code_lt
  | step hd _ ih =>
    rename_i i d is c syms hp0
    generalize hq : i + firstCode = q at hp'
    cases hp' with
    | root h => omega
    | step hd' hp' =>
      rename_i j d' is2 syms2
      have : j = i := by omega
      subst this
      rw [hd] at hd'
      cases hd'
      obtain ⟨a, b, e⟩ := ih hp'
      exact ⟨by rw [a], b, by rw [e]⟩

theorem Path.exists {V : List DInfo} (hw : WF V) : ∀ q, q < V.length + firstCode → ∃ is c syms, Path V q is c syms := by
  intro q
  induction q using Nat.strongRecOn with
  | ind q ih =>
    intro hq
    by_cases h : q < firstCode
    · exact ⟨_, _, _, .root h⟩
    · have hi : q - firstCode < V.length := by omega
      have hd : V[q - firstCode]? = some V[q - firstCode] := List.getElem?_eq_getElem hi
      obtain ⟨h1, _⟩ := hw _ _ hd
      obtain ⟨is, c, syms, hp⟩ := ih _ (by omega) (by omega : V[q - firstCode].prev < V.length + firstCode)
      have := Path.step hd hp
      rw [Nat.sub_add_cancel (by omega)] at this
      exact ⟨_, _, _, this⟩

theorem InvD.push {V N : List DInfo} (h : InvD (V, N)) {q c : Nat} (hq : q < V.length + firstCode) (hc : c < firstCode) :
    InvD (V ++ [{ prev := q, ch := c }], N) := by
  have get : ∀ i d, (V ++ [{ prev := q, ch := c }])[i]? = some d → (V[i]? = some d) ∨ (i = V.length ∧ d = { prev := q, ch := c }) := by
    intro i d hd
    rw [List.getElem?_append] at hd
    split at hd
    · exact .inl hd
    · rename_i hi
      right
      have hx := (List.getElem?_eq_some_iff.1 hd).1
      simp at hx
      have : i = V.length := by omega
      subst this
      simp at hd
      exact ⟨rfl, hd.symm⟩
  refine ⟨?_, h.wfn, ?_, h.clean, ?_, ?_⟩
  · intro i d hd
    rcases get i d hd with hd | ⟨rfl, rfl⟩
    · exact h.wf i d hd
    · exact ⟨hq, hc⟩
  · intro i d hd
    rcases get i d hd with hd | ⟨rfl, rfl⟩
    · exact h.flags i d hd
    · rfl
  · intro i d hd hu
    rcases get i d hd with hd | ⟨rfl, rfl⟩
    · have := h.closed i d hd hu
      have hp := (h.wf i d hd).1
      have hi := (List.getElem?_eq_some_iff.1 hd).1
      have hi' : i < V.length := hi
      unfold newOf at this ⊢
      split
      · rfl
      · rename_i hx
        rw [if_neg hx] at this
        dsimp only
        rw [List.getElem?_append_left (by omega)]
        exact this
    · cases hu
  · intro i d n hd hn
    rcases get i d hd with hd | ⟨rfl, rfl⟩
    · exact h.range i d n hd hn
    · cases hn

end Imt.Compr
