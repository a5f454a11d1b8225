import Verif.Model.RefHeap
/-!
# C167: values are destroyed exactly once, when nothing refers to them any more
-/
namespace Imt.Props
open Imt Imt.RefHeap

/-- What an object adds to the counter of `a`: nothing once it was destroyed. -/
def keepsRef (a : Nat) (c : Cell) : Nat := if c.cnt = 0 then 0 else c.kids.count a

/-- Pointers to `a` in objects. -/
def refsTo (h : Heap) (a : Nat) : Nat := (h.map (keepsRef a)).sum

theorem refsTo_set {h : Heap} {a : Nat} {c : Cell} (hc : h[a]? = some c) (c' : Cell) (b : Nat) :
    refsTo (h.set a c') b + keepsRef b c = refsTo h b + keepsRef b c' := by
  induction h generalizing a with
  | nil => simp at hc
  | cons x t ih =>
    cases a with
    | zero =>
      simp at hc
      subst hc
      simp [refsTo]
      omega
    | succ a =>
      have := ih (a := a) (by simpa using hc)
      simp [refsTo] at this ⊢
      omega

theorem keepsRef_le {h : Heap} {b : Nat} {c : Cell} (hc : h[b]? = some c) (a : Nat) : keepsRef a c ≤ refsTo h a := by
  have := refsTo_set hc ⟨0, [], 0⟩ a
  simp [keepsRef] at this ⊢
  omega

theorem sum_zero_of_all : ∀ {l : List Nat}, (∀ x ∈ l, x = 0) → l.sum = 0
  | [], _ => rfl
  | x :: t, h => by
    rw [List.sum_cons, h x (List.mem_cons_self ..), sum_zero_of_all fun y hy => h y (List.mem_cons_of_mem _ hy)]

theorem perm_eraseIdx : ∀ {l : List Nat} {i a : Nat}, l[i]? = some a → l.Perm (a :: l.eraseIdx i)
  | [], i, a, h => by simp at h
  | x :: t, 0, a, h => by
    simp at h
    subst h
    exact List.Perm.refl _
  | x :: t, i + 1, a, h => ((perm_eraseIdx (l := t) (by simpa using h)).cons x).trans (.swap ..)

/-- What holds between any two steps, with the pointers `P` held from outside of the heap and the objects `D` being destroyed. -/
structure Counted (h : Heap) (P D : List Nat) : Prop where
  counts : ∀ (a : Nat) (c : Cell), h[a]? = some c → c.cnt = refsTo h a + P.count a
  older : ∀ (a : Nat) (c : Cell), h[a]? = some c → ∀ k ∈ c.kids, k < a
  here : ∀ p ∈ P, p < h.length
  dying : ∀ d ∈ D, ∃ c : Cell, h[d]? = some c ∧ c.cnt = 0 ∧ c.freed = 0
  freed : ∀ (a : Nat) (c : Cell), h[a]? = some c → a ∉ D → c.freed = if c.cnt = 0 then 1 else 0

theorem Counted.perm {h : Heap} {P Q D : List Nat} (H : Counted h P D) (p : P.Perm Q) : Counted h Q D :=
  ⟨fun a c hc => by rw [H.counts a c hc, p.count_eq], H.older, fun q hq => H.here q (p.mem_iff.2 hq), H.dying, H.freed⟩

/-- A pointer that is held refers to a living object. -/
theorem Counted.live {h : Heap} {P D : List Nat} (H : Counted h P D) {a : Nat} (ha : a ∈ P) : ∃ c, h[a]? = some c ∧ 0 < c.cnt := by
  have hl := H.here a ha
  refine ⟨h[a], List.getElem?_eq_getElem hl, ?_⟩
  have := H.counts a _ (List.getElem?_eq_getElem hl)
  have := List.count_pos_iff.2 ha
  omega

theorem get_set {h : Heap} {a : Nat} {c : Cell} (hc : h[a]? = some c) (c' : Cell) (b : Nat) :
    (h.set a c')[b]? = if b = a then some c' else h[b]? := by
  have hl : a < h.length := (List.getElem?_eq_some_iff.1 hc).1
  rw [List.getElem?_set]
  by_cases e : b = a
  · subst e; simp [hl]
  · rw [if_neg (fun x => e x.symm), if_neg e]

/-- Items of objects never change. -/
def SameKids (h h' : Heap) : Prop := h.map (·.kids) = h'.map (·.kids)

theorem sameKids_set {h : Heap} {a : Nat} {c : Cell} (hc : h[a]? = some c) (c' : Cell) (e : c'.kids = c.kids) : SameKids h (h.set a c') := by
  unfold SameKids
  apply List.ext_getElem?
  intro i
  rw [List.getElem?_map, List.getElem?_map, get_set hc]
  by_cases x : i = a
  · subst x; simp [hc, e]
  · rw [if_neg x]

theorem SameKids.length {h h' : Heap} (H : SameKids h h') : h.length = h'.length := by
  have := congrArg List.length H
  simpa using this

/-- Nesting of the value at `a` is at most `n` levels. -/
def NestLe (h : Heap) : Nat → Nat → Prop
  | 0, _ => False
  | n + 1, a => ∀ c, h[a]? = some c → ∀ k ∈ c.kids, NestLe h n k

theorem SameKids.get {h h' : Heap} (H : SameKids h h') {a : Nat} {c' : Cell} (hc : h'[a]? = some c') :
    ∃ c, h[a]? = some c ∧ c.kids = c'.kids := by
  have := congrArg (fun l => l[a]?) H
  simp only [List.getElem?_map, hc, Option.map_some] at this
  cases hh : h[a]? with
  | none => rw [hh] at this; simp at this
  | some c => rw [hh] at this; exact ⟨c, rfl, by simpa using this⟩

theorem SameKids.nest {h h' : Heap} (H : SameKids h h') : ∀ {n a : Nat}, NestLe h n a → NestLe h' n a
  | 0, _, x => x
  | n + 1, a, x => fun c' hc' k hk => by
    obtain ⟨c, hc, e⟩ := H.get hc'
    exact SameKids.nest H (x c hc k (e ▸ hk))

/-- What a step of the destruction may end with. -/
def Good (h : Heap) (P D : List Nat) (r : Res Heap) (enough : Prop) : Prop :=
  (r = .abort ∧ ¬ enough) ∨ ∃ h', r = .ok h' ∧ Counted h' P D ∧ SameKids h h'

theorem addRef_live {h : Heap} {P D : List Nat} {a : Nat} {c : Cell} (H : Counted h P D) (hc : h[a]? = some c) (hp : 0 < c.cnt) :
    ∃ h', addRef h a = .ok h' ∧ Counted h' (a :: P) D ∧ SameKids h h' := by
  refine ⟨h.set a { c with cnt := c.cnt + 1 }, by rw [addRef, hc]; exact if_neg (by omega), ?_, sameKids_set hc _ rfl⟩
  have hk : ∀ b, keepsRef b { c with cnt := c.cnt + 1 } = keepsRef b c := fun b => by
    simp only [keepsRef]; rw [if_neg (by omega), if_neg (by omega)]
  have hr : ∀ b, refsTo (h.set a { c with cnt := c.cnt + 1 }) b = refsTo h b := fun b => by
    have := refsTo_set hc { c with cnt := c.cnt + 1 } b
    rw [hk] at this; omega
  refine ⟨fun b d hd => ?_, fun b d hd => ?_, fun p hp => ?_, fun d hd => ?_, fun b d hd hb => ?_⟩
  · rw [hr]
    rw [get_set hc] at hd
    by_cases e : b = a
    · subst e
      rw [if_pos rfl] at hd
      cases hd
      have := H.counts _ _ hc
      simp; omega
    · rw [if_neg e] at hd
      rw [List.count_cons_of_ne (fun x => e x.symm)]
      exact H.counts b d hd
  · rw [get_set hc] at hd
    by_cases e : b = a
    · subst e
      rw [if_pos rfl] at hd
      cases hd
      exact H.older _ c hc
    · rw [if_neg e] at hd
      exact H.older b d hd
  · rw [List.length_set]
    rcases List.mem_cons.1 hp with rfl | hp
    · exact (List.getElem?_eq_some_iff.1 hc).1
    · exact H.here _ hp
  · obtain ⟨x, hx, h0, hf⟩ := H.dying d hd
    refine ⟨x, ?_, h0, hf⟩
    rw [get_set hc, if_neg, hx]
    rintro rfl
    rw [hc] at hx; cases hx; omega
  · rw [get_set hc] at hd
    by_cases e : b = a
    · subst e
      rw [if_pos rfl] at hd
      cases hd
      have := H.freed _ c hc hb
      rw [if_neg (by omega)] at this
      simp [this]
    · rw [if_neg e] at hd
      exact H.freed b d hd hb

theorem addRef_counted {h : Heap} {P D : List Nat} {a : Nat} (H : Counted h P D) (ha : a ∈ P) :
    ∃ h', addRef h a = .ok h' ∧ Counted h' (a :: P) D ∧ SameKids h h' := by
  obtain ⟨c, hc, hp⟩ := H.live ha
  exact addRef_live H hc hp

theorem release_counted : ∀ (lim : Nat) (h : Heap) (P D : List Nat) (a : Nat), Counted h (a :: P) D →
    Good h P D (release lim h a) (NestLe h lim a)
  | 0, h, P, D, a, _ => .inl ⟨rfl, id⟩
  | lim + 1, h, P, D, a, H => by
    obtain ⟨c, hc, hp⟩ := H.live (List.mem_cons_self ..)
    have hcnt := H.counts a c hc
    rw [List.count_cons_self] at hcnt
    rw [release, hc]
    simp only [if_neg (show ¬ c.cnt = 0 by omega)]
    by_cases h1 : c.cnt = 1
    · rw [if_pos h1]
      have hr0 : refsTo h a = 0 := by omega
      have hP0 : P.count a = 0 := by omega
      have hka : c.kids.count a = 0 := List.count_eq_zero.2 fun m => by have := H.older a c hc a m; omega
      have hr : ∀ b, refsTo (h.set a { c with cnt := 0 }) b + c.kids.count b = refsTo h b := fun b => by
        have := refsTo_set hc { c with cnt := 0 } b
        simp only [keepsRef, if_neg (show ¬ c.cnt = 0 by omega), if_true] at this
        omega
      have H1 : Counted (h.set a { c with cnt := 0 }) (c.kids.reverse ++ P) (a :: D) := by
        refine ⟨fun b d hd => ?_, fun b d hd => ?_, fun p hp => ?_, fun d hd => ?_, fun b d hd hb => ?_⟩
        · rw [List.count_append, List.count_reverse]
          have := hr b
          rw [get_set hc] at hd
          by_cases e : b = a
          · subst e
            rw [if_pos rfl] at hd
            cases hd
            show 0 = _
            omega
          · rw [if_neg e] at hd
            have := H.counts b d hd
            rw [List.count_cons_of_ne (fun x => e x.symm)] at this
            omega
        · rw [get_set hc] at hd
          by_cases e : b = a
          · subst e
            rw [if_pos rfl] at hd
            cases hd
            exact H.older _ c hc
          · rw [if_neg e] at hd
            exact H.older b d hd
        · rw [List.length_set]
          rcases List.mem_append.1 hp with hp | hp
          · have := H.older a c hc p (List.mem_reverse.1 hp)
            have := H.here a (List.mem_cons_self ..)
            omega
          · exact H.here p (List.mem_cons_of_mem _ hp)
        · rcases List.mem_cons.1 hd with rfl | hd
          · refine ⟨{ c with cnt := 0 }, by rw [get_set hc, if_pos rfl], rfl, ?_⟩
            have := H.freed d c hc fun hD => by
              obtain ⟨x, hx, h0, _⟩ := H.dying d hD
              rw [hc] at hx; cases hx; omega
            rw [if_neg (by omega)] at this
            exact this
          · obtain ⟨x, hx, h0, hf⟩ := H.dying d hd
            refine ⟨x, ?_, h0, hf⟩
            rw [get_set hc, if_neg, hx]
            rintro rfl
            rw [hc] at hx; cases hx; omega
        · rw [get_set hc, if_neg (fun (e : b = a) => hb (by rw [e]; exact List.mem_cons_self ..))] at hd
          exact H.freed b d hd fun x => hb (List.mem_cons_of_mem _ x)
      have haD : a ∉ D := fun hD => by
        obtain ⟨x, hx, h0, _⟩ := H.dying a hD
        rw [hc] at hx; cases hx; omega
      -- the loop
      have loop : ∀ (ks : List Nat) (h2 : Heap), SameKids h h2 → Counted h2 (ks ++ P) (a :: D) →
          Good h P (a :: D) (ks.foldlM (release lim) h2) (∀ k ∈ ks, NestLe h lim k) := by
        intro ks
        induction ks with
        | nil => exact fun h2 hs hh => .inr ⟨h2, rfl, hh, hs⟩
        | cons k t ih =>
          intro h2 hs hh
          rcases release_counted lim h2 (t ++ P) (a :: D) k hh with ⟨e, hn⟩ | ⟨h3, e, hh3, hs3⟩
          · refine .inl ⟨by rw [List.foldlM_cons, e]; rfl, fun x => hn (hs.nest (x k (List.mem_cons_self ..)))⟩
          · rcases ih h3 (hs.trans hs3) hh3 with ⟨e', hn⟩ | ⟨h4, e', hh4, hs4⟩
            · exact .inl ⟨by rw [List.foldlM_cons, e]; exact e', fun x => hn fun k' hk' => x k' (List.mem_cons_of_mem _ hk')⟩
            · exact .inr ⟨h4, by rw [List.foldlM_cons, e]; exact e', hh4, hs4⟩
      rcases loop _ _ (sameKids_set hc { c with cnt := 0 } rfl) H1 with ⟨e, hn⟩ | ⟨h2, e, H2, hs⟩
      · refine .inl ⟨?_, fun x => hn fun k hk => x c hc k (List.mem_reverse.1 hk)⟩
        rw [clear, e]; rfl
      · obtain ⟨c2, hc2, h0, hf⟩ := H2.dying a (List.mem_cons_self ..)
        right
        refine ⟨h2.set a { c2 with freed := c2.freed + 1 }, ?_, ?_, hs.trans (sameKids_set hc2 _ rfl)⟩
        · rw [clear, e]
          show dealloc h2 a = _
          rw [dealloc, hc2]
        · have hr2 : ∀ b, refsTo (h2.set a { c2 with freed := c2.freed + 1 }) b = refsTo h2 b := fun b => by
            have := refsTo_set hc2 { c2 with freed := c2.freed + 1 } b
            have k1 : keepsRef b { c2 with freed := c2.freed + 1 } = 0 := if_pos h0
            have k2 : keepsRef b c2 = 0 := if_pos h0
            omega
          refine ⟨fun b d hd => ?_, fun b d hd => ?_, fun p hp => ?_, fun d hd => ?_, fun b d hd hb => ?_⟩
          · rw [hr2]
            rw [get_set hc2] at hd
            by_cases e : b = a
            · subst e
              rw [if_pos rfl] at hd
              cases hd
              exact H2.counts _ c2 hc2
            · rw [if_neg e] at hd
              exact H2.counts b d hd
          · rw [get_set hc2] at hd
            by_cases e : b = a
            · subst e
              rw [if_pos rfl] at hd
              cases hd
              exact H2.older _ c2 hc2
            · rw [if_neg e] at hd
              exact H2.older b d hd
          · rw [List.length_set]
            exact H2.here p hp
          · obtain ⟨x, hx, h0', hf'⟩ := H2.dying d (List.mem_cons_of_mem _ hd)
            refine ⟨x, ?_, h0', hf'⟩
            rw [get_set hc2, if_neg, hx]
            rintro rfl
            exact haD hd
          · rw [get_set hc2] at hd
            by_cases e : b = a
            · subst e
              rw [if_pos rfl] at hd
              cases hd
              simp [h0, hf]
            · rw [if_neg e] at hd
              exact H2.freed b d hd fun x => by
                rcases List.mem_cons.1 x with x | x
                · exact e x
                · exact hb x
    · rw [if_neg h1]
      right
      refine ⟨_, rfl, ?_, sameKids_set hc _ rfl⟩
      have hk : ∀ b, keepsRef b { c with cnt := c.cnt - 1 } = keepsRef b c := fun b => by
        simp only [keepsRef]; rw [if_neg (by omega), if_neg (by omega)]
      have hr : ∀ b, refsTo (h.set a { c with cnt := c.cnt - 1 }) b = refsTo h b := fun b => by
        have := refsTo_set hc { c with cnt := c.cnt - 1 } b
        rw [hk] at this; omega
      refine ⟨fun b d hd => ?_, fun b d hd => ?_, fun p hp => ?_, fun d hd => ?_, fun b d hd hb => ?_⟩
      · rw [hr]
        rw [get_set hc] at hd
        by_cases e : b = a
        · subst e
          rw [if_pos rfl] at hd
          cases hd
          show c.cnt - 1 = _
          omega
        · rw [if_neg e] at hd
          have := H.counts b d hd
          rwa [List.count_cons_of_ne (fun x => e x.symm)] at this
      · rw [get_set hc] at hd
        by_cases e : b = a
        · subst e
          rw [if_pos rfl] at hd
          cases hd
          exact H.older _ c hc
        · rw [if_neg e] at hd
          exact H.older b d hd
      · rw [List.length_set]
        exact H.here p (List.mem_cons_of_mem _ hp)
      · obtain ⟨x, hx, h0, hf⟩ := H.dying d hd
        refine ⟨x, ?_, h0, hf⟩
        rw [get_set hc, if_neg, hx]
        rintro rfl
        rw [hc] at hx; cases hx; omega
      · rw [get_set hc] at hd
        by_cases e : b = a
        · subst e
          rw [if_pos rfl] at hd
          cases hd
          have := H.freed _ c hc hb
          rw [if_neg (by omega)] at this
          simp only [this]
          rw [if_neg (by omega)]
        · rw [if_neg e] at hd
          exact H.freed b d hd hb

/-- The state between steps: every pointer is in a variable, in an object or is the one the undefined value holds to itself. -/
def Sound (s : St) : Prop := Counted s.heap (0 :: s.vars) []

theorem sound_init : Sound RefHeap.init := by
  refine ⟨fun a c hc => ?_, fun a c hc => ?_, fun p hp => ?_, fun d hd => ?_, fun a c hc _ => ?_⟩
  · cases a with
    | zero => simp [RefHeap.init] at hc; subst hc; simp [RefHeap.init, refsTo, keepsRef]
    | succ a => simp [RefHeap.init] at hc
  · cases a with
    | zero => simp [RefHeap.init] at hc; subst hc; simp
    | succ a => simp [RefHeap.init] at hc
  · simp [RefHeap.init] at hp ⊢; exact hp
  · simp at hd
  · cases a with
    | zero => simp [RefHeap.init] at hc; subst hc; simp
    | succ a => simp [RefHeap.init] at hc

theorem var_mem (s : St) (i : Nat) : var s i ∈ 0 :: s.vars := by
  unfold var
  cases h : s.vars[i]? with
  | none => simp
  | some a => exact List.mem_cons_of_mem _ (List.mem_of_getElem? h)

/-- `itemAt` gives a living object. -/
theorem itemAt_live {h : Heap} {P : List Nat} {a : Nat} (H : Counted h (0 :: P) []) (ha : a ∈ 0 :: P) (j : Nat) :
    ∃ c, h[itemAt h a j]? = some c ∧ 0 < c.cnt := by
  obtain ⟨c, hc, hp⟩ := H.live ha
  rw [itemAt, hc]
  dsimp only
  cases hj : c.kids[j]? with
  | none => exact H.live (by simp)
  | some k =>
    have hk : k ∈ c.kids := List.mem_of_getElem? hj
    have hl : k < h.length := by
      have := H.older a c hc k hk
      have := (List.getElem?_eq_some_iff.1 hc).1
      omega
    refine ⟨h[k], List.getElem?_eq_getElem hl, ?_⟩
    have h1 := H.counts k _ (List.getElem?_eq_getElem hl)
    have h2 := keepsRef_le hc k
    have h3 : keepsRef k c = c.kids.count k := if_neg (by omega)
    have := List.count_pos_iff.2 hk
    omega

theorem addRefs_counted {P : List Nat} : ∀ (ks : List Nat) (h : Heap) (Q : List Nat), Counted h (Q ++ P) [] → (∀ k ∈ ks, k ∈ P) →
    ∃ h', ks.foldlM addRef h = .ok h' ∧ Counted h' (ks ++ (Q ++ P)) [] ∧ SameKids h h'
  | [], h, Q, H, _ => ⟨h, rfl, H, rfl⟩
  | k :: t, h, Q, H, hk => by
    obtain ⟨h1, e1, H1, s1⟩ := addRef_counted H (List.mem_append.2 (.inr (hk k (List.mem_cons_self ..))))
    obtain ⟨h2, e2, H2, s2⟩ := addRefs_counted t h1 (k :: Q) H1 fun x hx => hk x (List.mem_cons_of_mem _ hx)
    refine ⟨h2, by rw [List.foldlM_cons, e1]; exact e2, H2.perm ?_, s1.trans s2⟩
    exact List.perm_middle

theorem refsTo_append (h h' : Heap) (a : Nat) : refsTo (h ++ h') a = refsTo h a + refsTo h' a := by simp [refsTo]

/-- The items that are given to a new object. -/
theorem make_counted {h : Heap} {ks P : List Nat} (H : Counted h (ks ++ P) []) :
    Counted (h ++ [⟨1, ks, 0⟩]) (h.length :: P) [] := by
  have hnew : ∀ k ∈ ks ++ P, k ≠ h.length := fun k hk => by have := H.here k hk; omega
  have hold : refsTo h h.length = 0 := by
    unfold refsTo
    apply sum_zero_of_all
    intro x hx
    obtain ⟨c, hc, rfl⟩ := List.mem_map.1 hx
    obtain ⟨i, hi⟩ := List.getElem?_of_mem hc
    unfold keepsRef
    split
    · rfl
    · refine List.count_eq_zero.2 fun m => ?_
      have := H.older i c hi _ m
      have := (List.getElem?_eq_some_iff.1 hi).1
      omega
  have hone : ∀ a, refsTo [⟨1, ks, 0⟩] a = ks.count a := fun a => by simp [refsTo, keepsRef]
  have hget : ∀ (a : Nat) (c : Cell), (h ++ [⟨1, ks, 0⟩])[a]? = some c → h[a]? = some c ∨ (a = h.length ∧ c = ⟨1, ks, 0⟩) := by
    intro a c hc
    rw [List.getElem?_append] at hc
    split at hc
    · exact .inl hc
    · rename_i hn
      have hl : a - h.length = 0 := by
        have := (List.getElem?_eq_some_iff.1 hc).1
        simp at this; omega
      rw [hl] at hc
      simp at hc
      exact .inr ⟨by omega, hc.symm⟩
  refine ⟨fun a c hc => ?_, fun a c hc k hk => ?_, fun p hp => ?_, fun d hd => absurd hd (by simp), fun a c hc _ => ?_⟩
  · rw [refsTo_append, hone]
    rcases hget a c hc with hc | ⟨rfl, rfl⟩
    · have := H.counts a c hc
      have hl := (List.getElem?_eq_some_iff.1 hc).1
      rw [List.count_append] at this
      rw [List.count_cons_of_ne (by omega)]
      omega
    · have h1 : ks.count h.length = 0 := List.count_eq_zero.2 fun m => hnew _ (List.mem_append.2 (.inl m)) rfl
      have h2 : P.count h.length = 0 := List.count_eq_zero.2 fun m => hnew _ (List.mem_append.2 (.inr m)) rfl
      rw [List.count_cons_self, h1, h2, hold]
  · rcases hget a c hc with hc | ⟨rfl, rfl⟩
    · exact H.older a c hc k hk
    · exact H.here k (List.mem_append.2 (.inl hk))
  · rw [List.length_append, List.length_singleton]
    rcases List.mem_cons.1 hp with rfl | hp
    · omega
    · have := H.here p (List.mem_append.2 (.inr hp)); omega
  · rcases hget a c hc with hc | ⟨rfl, rfl⟩
    · exact H.freed a c hc (by simp)
    · simp

/-- Items of objects made before are the same. -/
def Extends (h h' : Heap) : Prop := ∃ t, SameKids (h ++ t) h'

theorem Extends.refl (h : Heap) : Extends h h := ⟨[], by simp [SameKids]⟩

theorem SameKids.ext {h h' : Heap} (H : SameKids h h') : Extends h h' := ⟨[], by simpa [SameKids] using H⟩

theorem Extends.trans {a b c : Heap} (h : Extends a b) (k : Extends b c) : Extends a c := by
  obtain ⟨t, ht⟩ := h
  obtain ⟨u, hu⟩ := k
  refine ⟨t ++ u, ?_⟩
  unfold SameKids at *
  rw [← hu, List.map_append, List.map_append, List.map_append, ← ht]
  simp

theorem take_sound {s : St} {a : Nat} (H : Sound s) (ha : ∃ c, s.heap[a]? = some c ∧ 0 < c.cnt) :
    ∃ s', take s a = .ok s' ∧ Sound s' ∧ Extends s.heap s'.heap ∧ s'.vars = s.vars ++ [a] := by
  obtain ⟨c, hc, hp⟩ := ha
  obtain ⟨h', e, H', k⟩ := addRef_live H hc hp
  refine ⟨⟨h', s.vars ++ [a]⟩, by rw [take, e]; rfl, H'.perm ?_, k.ext, rfl⟩
  show (a :: ([0] ++ s.vars)).Perm ([0] ++ s.vars ++ [a])
  exact (List.perm_append_singleton a ([0] ++ s.vars)).symm

theorem step_sound (lim : Nat) {s : St} (H : Sound s) (o : Op) :
    (step lim s o = .abort ∧ ∃ i a, o = .drop i ∧ s.vars[i]? = some a ∧ ¬ NestLe s.heap lim a) ∨
    ∃ s', step lim s o = .ok s' ∧ Sound s' ∧ Extends s.heap s'.heap := by
  cases o with
  | make is =>
    right
    obtain ⟨h', e, H', k⟩ := addRefs_counted (P := 0 :: s.vars) (is.map (var s)) s.heap [] H fun x hx => by
      obtain ⟨i, _, rfl⟩ := List.mem_map.1 hx
      exact var_mem s i
    refine ⟨⟨h' ++ [⟨1, is.map (var s), 0⟩], s.vars ++ [h'.length]⟩, ?_, ?_, ⟨[⟨1, is.map (var s), 0⟩], ?_⟩⟩
    · show RefHeap.make s _ = _
      rw [RefHeap.make, e]; rfl
    · refine (make_counted H').perm ?_
      show (h'.length :: ([0] ++ s.vars)).Perm ([0] ++ s.vars ++ [h'.length])
      exact (List.perm_append_singleton _ _).symm
    · unfold SameKids at *
      rw [List.map_append, List.map_append, k]
  | copy i =>
    right
    obtain ⟨s', e, hs, hx, _⟩ := take_sound H (Counted.live H (var_mem s i))
    exact ⟨s', e, hs, hx⟩
  | item i j =>
    right
    obtain ⟨s', e, hs, hx, _⟩ := take_sound H (itemAt_live H (var_mem s i) j)
    exact ⟨s', e, hs, hx⟩
  | drop i =>
    rw [step]
    cases ha : s.vars[i]? with
    | none => exact .inr ⟨s, rfl, H, .refl _⟩
    | some a =>
      have hp : (0 :: s.vars).Perm (a :: 0 :: s.vars.eraseIdx i) := ((perm_eraseIdx ha).cons 0).trans (.swap ..)
      dsimp only
      rcases release_counted lim s.heap _ [] a (H.perm hp) with ⟨e, hn⟩ | ⟨h', e, H', k⟩
      · exact .inl ⟨by rw [e]; rfl, i, a, rfl, ha, hn⟩
      · exact .inr ⟨⟨h', s.vars.eraseIdx i⟩, by rw [e]; rfl, H', k.ext⟩

theorem run_sound (lim : Nat) : ∀ (ops : List Op) (s : St), Sound s →
    run lim s ops = .abort ∨ ∃ s', run lim s ops = .ok s' ∧ Sound s' ∧ Extends s.heap s'.heap
  | [], s, H => .inr ⟨s, rfl, H, .refl _⟩
  | o :: t, s, H => by
    rcases step_sound lim H o with ⟨e, _⟩ | ⟨s1, e, H1, x1⟩
    · exact .inl (by rw [run, List.foldlM_cons, e]; rfl)
    · rcases run_sound lim t s1 H1 with e' | ⟨s2, e', H2, x2⟩
      · exact .inl (by rw [run, List.foldlM_cons, e]; exact e')
      · exact .inr ⟨s2, by rw [run, List.foldlM_cons, e]; exact e', H2, x1.trans x2⟩

/-! ## The claims -/

/-- What variables (and the library: the undefined value) can reach. -/
inductive RefReach (s : St) : Nat → Prop where
  | undef : RefReach s 0
  | var (i a : Nat) (h : s.vars[i]? = some a) : RefReach s a
  | item (a k : Nat) (c : Cell) (h : RefReach s a) (hc : s.heap[a]? = some c) (hk : k ∈ c.kids) : RefReach s k

/-- **C167 (partial: a stack that is deep enough, see below).** Whatever programs do with values, no destroyed object is touched (the result is
not undefined behaviour), and between any two steps the memory of an object was given back exactly once if nothing reaches it, and
never otherwise: no leak, no double free, no early free. -/
theorem C167_exact_partial (lim : Nat) (ops : List Op) :
    run lim RefHeap.init ops = .abort ∨
    ∃ s, run lim RefHeap.init ops = .ok s ∧
      ∀ a c, s.heap[a]? = some c → (RefReach s a ∧ c.freed = 0 ∧ 0 < c.cnt) ∨ (¬ RefReach s a ∧ c.freed = 1) := by
  rcases run_sound lim ops _ sound_init with e | ⟨s, e, H, _⟩
  · exact .inl e
  refine .inr ⟨s, e, fun a c hc => ?_⟩
  have reach_live : ∀ a, RefReach s a → ∃ c, s.heap[a]? = some c ∧ 0 < c.cnt := by
    intro a hr
    induction hr with
    | undef => exact Counted.live H (by simp)
    | var i a h => exact Counted.live H (List.mem_cons_of_mem _ (List.mem_of_getElem? h))
    | item a k c _ hc hk ih =>
      obtain ⟨c', hc', hp⟩ := ih
      rw [hc] at hc'; cases hc'
      have hl : k < s.heap.length := by
        have := H.older a c hc k hk
        have := (List.getElem?_eq_some_iff.1 hc).1
        omega
      refine ⟨s.heap[k], List.getElem?_eq_getElem hl, ?_⟩
      have h1 := H.counts k _ (List.getElem?_eq_getElem hl)
      have h2 := keepsRef_le hc k
      have h3 : keepsRef k c = c.kids.count k := if_neg (by omega)
      have := List.count_pos_iff.2 hk
      omega
  have live_reach : ∀ (n a : Nat) (c : Cell), s.heap.length - a = n → s.heap[a]? = some c → 0 < c.cnt → RefReach s a := by
    intro n
    induction n using Nat.strongRecOn with
    | ind n ih =>
      intro a c hn hc hp
      have hcnt := H.counts a c hc
      by_cases hv : a ∈ 0 :: s.vars
      · rcases List.mem_cons.1 hv with rfl | hv
        · exact .undef
        · obtain ⟨i, hi⟩ := List.getElem?_of_mem hv
          exact .var i a hi
      · have h0 : (0 :: s.vars).count a = 0 := List.count_eq_zero.2 hv
        have hr : 0 < refsTo s.heap a := by omega
        have : ∃ (b : Nat) (d : Cell), s.heap[b]? = some d ∧ 0 < keepsRef a d := by
          by_cases hall : ∀ x ∈ s.heap.map (keepsRef a), x = 0
          · have := sum_zero_of_all hall
            unfold refsTo at hr
            omega
          · simp only [Classical.not_forall] at hall
            obtain ⟨x, hx, hx0⟩ := hall
            obtain ⟨d, hd, rfl⟩ := List.mem_map.1 hx
            obtain ⟨b, hb⟩ := List.getElem?_of_mem hd
            exact ⟨b, d, hb, by omega⟩
        obtain ⟨b, d, hb, hk⟩ := this
        unfold keepsRef at hk
        split at hk
        · omega
        · rename_i hd0
          have hm := List.count_pos_iff.1 hk
          have hlt := H.older b d hb a hm
          have hbl := (List.getElem?_eq_some_iff.1 hb).1
          exact .item b a d (ih _ (by omega) b d rfl hb (by omega)) hb hm
  have hf := H.freed a c hc (by simp)
  by_cases h0 : c.cnt = 0
  · right
    rw [if_pos h0] at hf
    refine ⟨fun hr => ?_, hf⟩
    obtain ⟨c', hc', hp⟩ := reach_live a hr
    rw [hc] at hc'; cases hc'
    omega
  · left
    rw [if_neg h0] at hf
    exact ⟨live_reach _ a c rfl hc (by omega), hf, by omega⟩

/-- A program that shares an item between two arrays and drops both; the item stays while it is held. -/
example : run 5 RefHeap.init [.make [], .make [0, 0], .make [0, 1], .drop 1, .drop 1] =
    .ok ⟨[⟨1, [], 0⟩, ⟨1, [], 0⟩, ⟨0, [1, 1], 1⟩, ⟨0, [1, 2], 1⟩], [1]⟩ := by decide +kernel

/-- **Items never change**: what an object was made of it has for ever, and no object becomes part of an older one. -/
theorem C167_items (lim : Nat) (ops more : List Op) (s s' : St) (h : run lim RefHeap.init ops = .ok s) (h' : run lim s more = .ok s')
    (a : Nat) (c : Cell) (hc : s.heap[a]? = some c) : (∃ c', s'.heap[a]? = some c' ∧ c'.kids = c.kids) ∧ ∀ k ∈ c.kids, k < a := by
  rcases run_sound lim ops _ sound_init with e | ⟨s1, e, H, _⟩
  · rw [h] at e; cases e
  rw [h] at e; cases e
  rcases run_sound lim more _ H with e | ⟨s2, e, _, t, x⟩
  · rw [h'] at e; cases e
  rw [h'] at e; cases e
  refine ⟨?_, H.older a c hc⟩
  have hl : a < s.heap.length := (List.getElem?_eq_some_iff.1 hc).1
  have hx := congrArg (fun l => l[a]?) x
  simp only [List.getElem?_map, List.getElem?_append_left hl, hc, Option.map_some] at hx
  cases hs : s'.heap[a]? with
  | none => rw [hs] at hx; simp at hx
  | some c' => rw [hs] at hx; exact ⟨c', rfl, by simpa using hx.symm⟩

example : ∃ s s', run 5 RefHeap.init [.make [], .make [0, 0]] = .ok s ∧ run 5 s [.drop 1, .drop 0] = .ok s' ∧
    s.heap[2]? = some ⟨1, [1, 1], 0⟩ := ⟨_, _, rfl, rfl, rfl⟩

/-- **C167, what is read.** Reading item `j` of a container into a new variable gives the pointer the container holds in that place, or,
beyond its end, the undefined value; all other variables keep their pointers, and a copy is a pointer to the same object. -/
theorem C167_read (lim : Nat) (s s' : St) (i a : Nat) (hi : s.vars[i]? = some a) (c : Cell) (hc : s.heap[a]? = some c) :
    (∀ j, step lim s (.item i j) = .ok s' → s'.vars = s.vars ++ [if h : j < c.kids.length then c.kids[j] else 0]) ∧
    (step lim s (.copy i) = .ok s' → s'.vars = s.vars ++ [a]) := by
  have take_vars : ∀ b, take s b = .ok s' → s'.vars = s.vars ++ [b] := by
    intro b h
    unfold take at h
    cases e : addRef s.heap b with
    | ok x => rw [e] at h; cases h; rfl
    | _ => rw [e] at h; cases h
  refine ⟨fun j h => ?_, fun h => ?_⟩
  · rw [step, var, hi] at h
    rw [take_vars _ h]
    simp only [Option.getD_some, itemAt, hc]
    split
    · next hj => rw [List.getElem?_eq_getElem hj]; rfl
    · next hj => rw [List.getElem?_eq_none (by omega)]; rfl
  · rw [step, var, hi] at h
    exact take_vars _ h

example : ∃ s s', run 9 RefHeap.init [.make [], .make [], .make [0, 1]] = .ok s ∧ s.vars[2]? = some 3 ∧ step 9 s (.item 2 1) = .ok s' ∧
    s'.vars = [1, 2, 3, 2] := ⟨_, _, rfl, rfl, rfl, rfl⟩

/-- **A stack deep enough** (partial): a step fails only at the end of a variable whose value is nested deeper than the stack. -/
theorem C167_enough_partial (lim : Nat) (ops : List Op) (s : St) (h : run lim RefHeap.init ops = .ok s) (o : Op)
    (ho : ∀ i a, o = .drop i → s.vars[i]? = some a → NestLe s.heap lim a) : ∃ s', step lim s o = .ok s' := by
  rcases run_sound lim ops _ sound_init with e | ⟨s1, e, H, _⟩
  · rw [h] at e; cases e
  rw [h] at e; cases e
  rcases step_sound lim H o with ⟨_, i, a, e1, e2, hn⟩ | ⟨s', e, _⟩
  · exact absurd (ho i a e1 e2) hn
  · exact ⟨s', e⟩

example : run 5 RefHeap.init [.make [], .make [0, 0]] = .ok ⟨[⟨1, [], 0⟩, ⟨3, [], 0⟩, ⟨1, [1, 1], 0⟩], [1, 2]⟩ ∧
    NestLe [⟨1, [], 0⟩, ⟨3, [], 0⟩, ⟨1, [1, 1], 0⟩] 2 2 := by
  refine ⟨by decide +kernel, ?_⟩
  intro c hc k hk
  simp at hc
  subst hc
  simp at hk
  subst hk
  intro c hc k hk
  simp at hc
  subst hc
  simp at hk

theorem run_two (lim : Nat) : ∀ (a b : List Op) (s s' : St), run lim s a = .ok s' → run lim s (a ++ b) = run lim s' b
  | [], b, s, s', h => by cases h; rfl
  | o :: t, b, s, s', h => by
    unfold run at h ⊢
    rw [List.cons_append, List.foldlM_cons]
    rw [List.foldlM_cons] at h
    cases e : step lim s o with
    | ok x => rw [e] at h; exact run_two lim t b x s' h
    | err => rw [e] at h; cases h
    | ub => rw [e] at h; cases h
    | abort => rw [e] at h; cases h
    | fuel => rw [e] at h; cases h

/-- The program that puts an array into an array into an array, in a loop. -/
def nestLoop : Nat → List Op
  | 0 => [.make []]
  | n + 1 => nestLoop n ++ [.make [0], .drop 0]

/-- Its memory: each object but the first holds the one before. -/
def nestCells (n : Nat) : Heap := ⟨1, [], 0⟩ :: (List.range (n + 1)).map fun k => ⟨1, if k = 0 then [] else [k], 0⟩

theorem nestCells_get (n k : Nat) (h : k ≤ n) : (nestCells n)[k + 1]? = some ⟨1, if k = 0 then [] else [k], 0⟩ := by
  unfold nestCells
  rw [List.getElem?_cons_succ, List.getElem?_map, List.getElem?_range (by omega)]
  rfl

theorem nestCells_succ (n : Nat) : nestCells (n + 1) = nestCells n ++ [⟨1, [n + 1], 0⟩] := by
  unfold nestCells
  rw [List.range_succ (n := n + 1), List.map_append]
  simp

theorem nestLoop_run (lim : Nat) (hl : 0 < lim) : ∀ n, run lim RefHeap.init (nestLoop n) = .ok ⟨nestCells n, [n + 1]⟩
  | 0 => rfl
  | n + 1 => by
    obtain ⟨lim, rfl⟩ : ∃ l, lim = l + 1 := ⟨lim - 1, by omega⟩
    have ih := nestLoop_run (lim + 1) hl n
    have hlen : (nestCells n).length = n + 2 := by simp [nestCells]
    have hg : (nestCells n)[n + 1]? = some ⟨1, if n = 0 then [] else [n], 0⟩ := nestCells_get n n (by omega)
    rw [nestLoop, run_two _ _ _ _ _ ih]
    show (List.foldlM (step (lim + 1)) ⟨nestCells n, [n + 1]⟩ [.make [0], .drop 0]) = _
    have h1 : step (lim + 1) ⟨nestCells n, [n + 1]⟩ (.make [0]) =
        .ok ⟨(nestCells n).set (n + 1) ⟨2, if n = 0 then [] else [n], 0⟩ ++ [⟨1, [n + 1], 0⟩], [n + 1, n + 2]⟩ := by
      show RefHeap.make _ [n + 1] = _
      simp only [RefHeap.make, List.foldlM_cons, List.foldlM_nil, addRef, hg]
      simp [hlen]
    rw [List.foldlM_cons, h1]
    show (step (lim + 1) _ (.drop 0) >>= _) = _
    have h2 : ((nestCells n).set (n + 1) ⟨2, if n = 0 then [] else [n], 0⟩ ++ [⟨1, [n + 1], 0⟩])[n + 1]? =
        some ⟨2, if n = 0 then [] else [n], 0⟩ := by
      rw [List.getElem?_append_left (by simp [hlen]), get_set hg, if_pos rfl]
    have h3 : step (lim + 1) ⟨(nestCells n).set (n + 1) ⟨2, if n = 0 then [] else [n], 0⟩ ++ [⟨1, [n + 1], 0⟩], [n + 1, n + 2]⟩ (.drop 0) =
        .ok ⟨nestCells (n + 1), [n + 2]⟩ := by
      simp only [step, List.getElem?_cons_zero, release, h2]
      rw [nestCells_succ]
      have h4 : (nestCells n).set (n + 1) ⟨1, if n = 0 then [] else [n], 0⟩ = nestCells n := by
        apply List.ext_getElem?
        intro i
        rw [get_set hg]
        split
        · rename_i e; rw [e, hg]
        · rfl
      simp
      rw [List.set_append_left _ _ (by simp [hlen]), List.set_set, h4]
    rw [h3]
    rfl

theorem release_deep : ∀ (lim a : Nat) (h : Heap), (∀ b, b < a → h[b + 1]? = some ⟨1, if b = 0 then [] else [b], 0⟩) → lim < a →
    release lim h a = .abort
  | 0, _, _, _, _ => rfl
  | lim + 1, a, h, hh, hl => by
    obtain ⟨a, rfl⟩ : ∃ b, a = b + 1 := ⟨a - 1, by omega⟩
    have ha := hh a (by omega)
    rw [if_neg (by omega)] at ha
    rw [release, ha]
    have := release_deep lim a (h.set (a + 1) ⟨0, [a], 0⟩) (fun b hb => by
      rw [get_set ha, if_neg (by omega)]
      exact hh b (by omega)) (by omega)
    simp [clear, this]

/-- **C167 does not hold on a finite stack**: for every stack there is a value that can be built in a loop that needs almost no stack, and the
program ends when the value is destroyed. -/
theorem C167_violation_depth (lim n : Nat) (h0 : 0 < lim) (hl : lim ≤ n) :
    run lim RefHeap.init (nestLoop n ++ [.drop 0]) = .abort ∧ ∃ s, run 1 RefHeap.init (nestLoop n) = .ok s := by
  refine ⟨?_, _, nestLoop_run 1 (by omega) n⟩
  have := nestLoop_run lim h0 n
  rw [run_two _ _ _ _ _ this]
  show (step lim _ (.drop 0) >>= _) = _
  have e : release lim (nestCells n) (n + 1) = .abort := release_deep lim (n + 1) _ (fun b hb => nestCells_get n b (by omega)) (by omega)
  simp only [step, List.getElem?_cons_zero, e]
  rfl

example : 0 < 3 ∧ 3 ≤ 3 ∧ run 3 RefHeap.init (nestLoop 3 ++ [.drop 0]) = .abort ∧
    ∃ s, run 4 RefHeap.init (nestLoop 3 ++ [.drop 0]) = .ok s := ⟨by decide, by decide, by decide +kernel, _, rfl⟩

end Imt.Props
