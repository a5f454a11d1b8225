import Verif.Model.ParserDepth
import Verif.Lemmas.Parser
import Verif.Props.Parser
import Verif.Lemmas.ObjB
/-!
# C163 — parsing needs a bounded stack
-/
namespace Imt.Props
open Imt Imt.Parser

-- The proofs never look inside of these by reduction.
attribute [local irreducible] readStr checkKw parseNumber finishObj parseVD parseMembersD parseItemsD parseV parseMembers parseItems

/-- The first outcome is the end of the stack or the second one. -/
def StackLe {α : Type} (x y : Res α) : Prop := x = .abort ∨ x = y

theorem StackLe.refl {α : Type} (x : Res α) : StackLe x x := .inr rfl

theorem StackLe.bind {α β : Type} {x y : Res α} {f g : α → Res β} (h : StackLe x y) (hf : ∀ a, StackLe (f a) (g a)) :
    StackLe (x >>= f) (y >>= g) := by
  rcases h with rfl | rfl
  · exact .inl rfl
  · cases x with
    | ok a => exact hf a
    | _ => exact .inr rfl

theorem StackLe.ite {α : Type} {p : Prop} [Decidable p] {a b c d : Res α} (h : StackLe a b) (h2 : StackLe c d) :
    StackLe (if p then a else c) (if p then b else d) := by
  by_cases hp : p
  · rw [if_pos hp, if_pos hp]; exact h
  · rw [if_neg hp, if_neg hp]; exact h2

theorem parseD_le (cfg : Cfg) (f : Nat) : ∀ lim,
    (∀ s, StackLe (parseVD cfg lim f s) (parseV cfg f s)) ∧
    (∀ s, StackLe (parseMembersD cfg lim f s) (parseMembers cfg f s)) ∧
    (∀ s, StackLe (parseItemsD cfg lim f s) (parseItems cfg f s)) := by
  induction f with
  | zero =>
    intro lim
    refine ⟨fun s => ?_, fun s => ?_, fun s => ?_⟩
    · cases lim with
      | zero => exact .inl (by rw [parseVD])
      | succ l => exact .inr (by rw [parseVD, parseV])
    · exact .inr (by rw [parseMembersD, parseMembers])
    · exact .inr (by rw [parseItemsD, parseItems])
  | succ f ih =>
    intro lim
    refine ⟨fun s => ?_, fun s => ?_, fun s => ?_⟩
    · cases lim with
      | zero => exact .inl (by rw [parseVD])
      | succ l =>
        rw [parseVD, parseV]
        cases skipWs s with
        | nil => exact .refl _
        | cons c r =>
          dsimp only
          refine .ite ?_ (.ite ?_ (.refl _))
          · cases skipWs r with
            | nil => exact .refl _
            | cons c' r' => exact .ite (.refl _) (((ih l).2.1 _).bind (fun _ => .refl _))
          · cases skipWs r with
            | nil => exact .refl _
            | cons c' r' => exact .ite (.refl _) (((ih l).2.2 _).bind (fun _ => .refl _))
    · cases s with
      | nil => exact .inr (by rw [parseMembersD, parseMembers])
      | cons q r =>
        rw [parseMembersD, parseMembers]
        refine .ite ((StackLe.refl _).bind (fun k => ?_)) (.refl _)
        cases skipWs k.2 with
        | nil => exact .refl _
        | cons c r2 =>
          refine .ite (((ih lim).1 _).bind (fun v => ?_)) (.refl _)
          cases skipWs v.2 with
          | nil => exact .refl _
          | cons c2 r4 => exact .ite (.refl _) (.ite (((ih lim).2.1 _).bind (fun _ => .refl _)) (.refl _))
    · rw [parseItemsD, parseItems]
      refine ((ih lim).1 _).bind (fun v => ?_)
      cases skipWs v.2 with
      | nil => exact .refl _
      | cons c2 r4 => exact .ite (.refl _) (.ite (((ih lim).2.2 _).bind (fun _ => .refl _)) (.refl _))

theorem parseD_mono (cfg : Cfg) (f : Nat) : ∀ lim lim', lim ≤ lim' →
    (∀ s, StackLe (parseVD cfg lim f s) (parseVD cfg lim' f s)) ∧
    (∀ s, StackLe (parseMembersD cfg lim f s) (parseMembersD cfg lim' f s)) ∧
    (∀ s, StackLe (parseItemsD cfg lim f s) (parseItemsD cfg lim' f s)) := by
  induction f with
  | zero =>
    intro lim lim' h
    refine ⟨fun s => ?_, fun s => ?_, fun s => ?_⟩
    · cases lim with
      | zero => exact .inl (by rw [parseVD])
      | succ l =>
        obtain ⟨l', rfl⟩ : ∃ k, lim' = k + 1 := ⟨lim' - 1, by omega⟩
        exact .inr (by rw [parseVD, parseVD])
    · exact .inr (by rw [parseMembersD, parseMembersD])
    · exact .inr (by rw [parseItemsD, parseItemsD])
  | succ f ih =>
    intro lim lim' h
    refine ⟨fun s => ?_, fun s => ?_, fun s => ?_⟩
    · cases lim with
      | zero => exact .inl (by rw [parseVD])
      | succ l =>
        obtain ⟨l', rfl⟩ : ∃ k, lim' = k + 1 := ⟨lim' - 1, by omega⟩
        have hl := ih l l' (by omega)
        rw [parseVD, parseVD]
        cases skipWs s with
        | nil => exact .refl _
        | cons c r =>
          dsimp only
          refine .ite ?_ (.ite ?_ (.refl _))
          · cases skipWs r with
            | nil => exact .refl _
            | cons c' r' => exact .ite (.refl _) ((hl.2.1 _).bind (fun _ => .refl _))
          · cases skipWs r with
            | nil => exact .refl _
            | cons c' r' => exact .ite (.refl _) ((hl.2.2 _).bind (fun _ => .refl _))
    · cases s with
      | nil => exact .inr (by rw [parseMembersD, parseMembersD])
      | cons q r =>
        have hl := ih lim lim' h
        rw [parseMembersD, parseMembersD]
        refine .ite ((StackLe.refl _).bind (fun k => ?_)) (.refl _)
        cases skipWs k.2 with
        | nil => exact .refl _
        | cons c r2 =>
          refine .ite ((hl.1 _).bind (fun v => ?_)) (.refl _)
          cases skipWs v.2 with
          | nil => exact .refl _
          | cons c2 r4 => exact .ite (.refl _) (.ite ((hl.2.1 _).bind (fun _ => .refl _)) (.refl _))
    · have hl := ih lim lim' h
      rw [parseItemsD, parseItemsD]
      refine (hl.1 _).bind (fun v => ?_)
      cases skipWs v.2 with
      | nil => exact .refl _
      | cons c2 r4 => exact .ite (.refl _) (.ite ((hl.2.2 _).bind (fun _ => .refl _)) (.refl _))

/-- C163: a run that does not exhaust its stack gives what the parser gives with an unlimited one. -/
theorem C163_same (cfg : Cfg) (lim : Nat) (s : Bytes) : parseD cfg lim s = .abort ∨ parseD cfg lim s = parse cfg s :=
  (parseD_le cfg _ lim).1 s

/-- C163: more stack never changes the outcome of a run that had enough. -/
theorem C163_more (cfg : Cfg) (lim lim' : Nat) (hl : lim ≤ lim') (s : Bytes) (h : parseD cfg lim s ≠ .abort) :
    parseD cfg lim' s = parseD cfg lim s := by
  rcases (parseD_mono cfg (2 * s.length + 1) lim lim' hl).1 s with h1 | h1
  · exact absurd h1 h
  · exact h1.symm

example : (2 : Nat) ≤ 5 ∧ parseD {} 2 (ascii "[1]") = .ok (.arr [.num (.uint 1)], []) := by decide +kernel

/-- Brackets and braces that open in a text (also those in its strings). -/
def openings (s : Bytes) : Nat := s.countP (fun c => c = 0x7B || c = 0x5B)

theorem openings_suffix {r s : Bytes} (h : r <:+ s) : openings r ≤ openings s := h.sublist.countP_le

theorem openings_cons (c : Nat) (r : Bytes) (h : c = 0x7B ∨ c = 0x5B) : openings (c :: r) = openings r + 1 := by
  unfold openings
  rw [List.countP_cons_of_pos]
  simpa using h

theorem ite_both {α : Type} {p : Prop} [Decidable p] {a b c d : α} (h : p → a = b) (h2 : ¬ p → c = d) :
    (if p then a else c) = (if p then b else d) := by
  by_cases hp : p
  · rw [if_pos hp, if_pos hp]; exact h hp
  · rw [if_neg hp, if_neg hp]; exact h2 hp

theorem bind_both {α β : Type} {x : Res α} {f g : α → Res β} (h : ∀ a, x = .ok a → f a = g a) : (x >>= f) = (x >>= g) := by
  cases x with
  | ok a => exact h a rfl
  | _ => rfl

theorem parseD_enough (cfg : Cfg) (f : Nat) :
    (∀ lim (s : Bytes), 2 * s.length + 1 ≤ f → openings s < lim → parseVD cfg lim f s = parseV cfg f s) ∧
    (∀ lim (s : Bytes), 2 * s.length + 2 ≤ f → openings s < lim → parseMembersD cfg lim f s = parseMembers cfg f s) ∧
    (∀ lim (s : Bytes), 2 * s.length + 2 ≤ f → openings s < lim → parseItemsD cfg lim f s = parseItems cfg f s) := by
  induction f with
  | zero => exact ⟨fun _ s h => by omega, fun _ s h => by omega, fun _ s h => by omega⟩
  | succ f ih =>
    obtain ⟨ihV, ihM, ihI⟩ := ih
    refine ⟨?_, ?_, ?_⟩
    · intro lim s hf ho
      obtain ⟨l, rfl⟩ : ∃ k, lim = k + 1 := ⟨lim - 1, by omega⟩
      rw [parseVD, parseV]
      have hw := skipWs_suffix s
      cases he : skipWs s with
      | nil => rfl
      | cons c r =>
        dsimp only
        rw [he] at hw
        have hl := suffix_len_lt hw
        have hw2 := skipWs_suffix r
        have ho2 := openings_suffix hw
        refine ite_both (fun hc => ?_) (fun _ => ite_both (fun hc => ?_) (fun _ => rfl))
        · rw [openings_cons c r (.inl hc)] at ho2
          cases he' : skipWs r with
          | nil => rfl
          | cons c' r' =>
            rw [he'] at hw2
            have hl2 := hw2.length_le
            have ho3 := openings_suffix hw2
            exact ite_both (fun _ => rfl) (fun _ => by rw [ihM l (c' :: r') (by omega) (by omega)])
        · rw [openings_cons c r (.inr hc)] at ho2
          cases he' : skipWs r with
          | nil => rfl
          | cons c' r' =>
            rw [he'] at hw2
            have hl2 := hw2.length_le
            have ho3 := openings_suffix hw2
            exact ite_both (fun _ => rfl) (fun _ => by rw [ihI l (c' :: r') (by omega) (by omega)])
    · intro lim s hf ho
      cases s with
      | nil => rw [parseMembersD, parseMembers]
      | cons q r =>
        rw [parseMembersD, parseMembers]
        have hr : openings r ≤ openings (q :: r) := openings_suffix (List.suffix_cons q r)
        rw [List.length_cons] at hf
        refine ite_both (fun _ => bind_both (fun k hk => ?_)) (fun _ => rfl)
        have hg := readStr_good cfg r Utf8.Dec.init
        rw [hk] at hg
        have hg : k.2 <:+ r := hg
        have hw := (skipWs_suffix k.2).trans hg
        cases he : skipWs k.2 with
        | nil => rfl
        | cons c r2 =>
          rw [he] at hw
          have hl := suffix_len_lt hw
          have ho2 := openings_suffix (suffix_tail hw)
          refine ite_both (fun _ => ?_) (fun _ => rfl)
          rw [ihV lim r2 (by omega) (by omega)]
          refine bind_both (fun v hv => ?_)
          have hgv := (parse_good cfg f).1 r2 (by omega)
          rw [hv] at hgv
          have hgv : v.2 <:+ r2 := hgv
          have hw3 := (skipWs_suffix v.2).trans hgv
          cases he4 : skipWs v.2 with
          | nil => rfl
          | cons c2 r4 =>
            rw [he4] at hw3
            have h4 := (skipWs_suffix r4).trans (suffix_tail hw3)
            have hl4 := h4.length_le
            have ho4 := openings_suffix h4
            exact ite_both (fun _ => rfl) (fun _ => ite_both (fun _ => by rw [ihM lim (skipWs r4) (by omega) (by omega)]) (fun _ => rfl))
    · intro lim s hf ho
      rw [parseItemsD, parseItems, ihV lim s (by omega) ho]
      refine bind_both (fun v hv => ?_)
      have hgv := (parse_good cfg f).1 s (by omega)
      rw [hv] at hgv
      have hgv : v.2 <:+ s := hgv
      have hw3 := (skipWs_suffix v.2).trans hgv
      cases he4 : skipWs v.2 with
      | nil => rfl
      | cons c2 r4 =>
        rw [he4] at hw3
        have hl4 := suffix_len_lt hw3
        have ho4 := openings_suffix (suffix_tail hw3)
        exact ite_both (fun _ => rfl) (fun _ => ite_both (fun _ => by rw [ihI lim r4 (by omega) (by omega)]) (fun _ => rfl))

/-- C163: one call more than there are opening brackets and braces in the text is enough. -/
theorem C163_enough_partial (cfg : Cfg) (lim : Nat) (s : Bytes) (h : openings s < lim) : parseD cfg lim s = parse cfg s :=
  (parseD_enough cfg _).1 lim s (Nat.le_refl _) h

example : openings (ascii "[{\"a\":[]}]") = 3 ∧ parseD {} 3 (ascii "[{\"a\":[]}]") = parse {} (ascii "[{\"a\":[]}]") ∧
    parseD {} 2 (ascii "[{\"a\":[]}]") = .abort := by decide +kernel

/-- C163 fails: whatever the stack is, that many opening brackets exhaust it, whatever follows them. The text need not be
a document; a program that reads from a socket is ended by the brackets alone. -/
theorem C163_violation (cfg : Cfg) (lim n : Nat) (h : lim ≤ n) (t : Bytes) :
    parseD cfg lim (List.replicate (n + 1) 0x5B ++ t) = .abort := by
  have key : ∀ (lim n f : Nat), lim ≤ n → 2 * n + 2 ≤ f → parseVD cfg lim f (List.replicate (n + 1) 0x5B ++ t) = .abort := by
    intro lim
    induction lim with
    | zero => intro n f _ _; rw [parseVD]
    | succ l ih =>
      intro n f hn hf
      obtain ⟨n, rfl⟩ : ∃ k, n = k + 1 := ⟨n - 1, by omega⟩
      obtain ⟨f, rfl⟩ : ∃ k, f = k + 2 := ⟨f - 2, by omega⟩
      rw [parseVD]
      have e : skipWs (List.replicate (n + 1 + 1) 0x5B ++ t) = 0x5B :: (List.replicate (n + 1) 0x5B ++ t) := rfl
      have e2 : skipWs (List.replicate (n + 1) 0x5B ++ t) = 0x5B :: (List.replicate n 0x5B ++ t) := rfl
      rw [e]
      simp only [e2]
      rw [if_neg (by decide), if_pos trivial, if_neg (by decide), parseItemsD]
      have := ih n f (by omega) (by omega)
      rw [List.replicate_succ, List.cons_append] at this
      rw [this]
      rfl
  unfold parseD
  refine key lim n _ h ?_
  rw [List.length_append, List.length_replicate]
  omega

example : (3 : Nat) ≤ 3 ∧ parseD {} 3 (List.replicate 4 0x5B ++ []) = .abort ∧ parse {} (List.replicate 4 0x5B) = .err := by
  decide +kernel

mutual
/-- Levels of a value: a scalar and an empty container 1, another container one more than its deepest item. -/
def nesting : JV → Nat
  | .arr l => nestingL l + 1
  | .obj l => nestingM l + 1
  | _ => 1
/-- The deepest item. -/
def nestingL : List JV → Nat
  | [] => 0
  | v :: r => max (nesting v) (nestingL r)
/-- The deepest member. -/
def nestingM : List (Bytes × JV) → Nat
  | [] => 0
  | m :: r => max (nesting m.2) (nestingM r)
end

theorem nestingM_le {l : List (Bytes × JV)} {n : Nat} : nestingM l ≤ n ↔ ∀ m ∈ l, nesting m.2 ≤ n := by
  induction l with
  | nil => simp [nestingM]
  | cons m r ih => rw [nestingM, Nat.max_le, ih]; simp

theorem nestingL_le {l : List JV} {n : Nat} : nestingL l ≤ n ↔ ∀ v ∈ l, nesting v ≤ n := by
  induction l with
  | nil => simp [nestingL]
  | cons m r ih => rw [nestingL, Nat.max_le, ih]; simp

theorem mkObject_sub (l : List (Bytes × JV)) {m : Bytes × JV} (h : m ∈ Obj.mkObject JV.defined false l) : m ∈ l := by
  have hs := Obj.mkObject_sorted JV.defined false l
  have h1 := Obj.lookup_of_mem hs h
  rw [Obj.lookup_eq_lastVal hs, Obj.mkObject_lastVal] at h1
  exact Obj.lastVal_mem h1

/-- Every result of `x` satisfies `P`. -/
def AllOk {α : Type} (P : α → Prop) (x : Res α) : Prop := ∀ a, x = .ok a → P a

theorem AllOk.pure {α : Type} {P : α → Prop} {a : α} (h : P a) : AllOk P (.ok a) := by
  intro b e; cases e; exact h

theorem AllOk.err {α : Type} {P : α → Prop} : AllOk P (.err : Res α) := by
  intro b e; cases e

theorem AllOk.bind {α β : Type} {P : α → Prop} {Q : β → Prop} {x : Res α} {f : α → Res β} (h : AllOk P x)
    (hf : ∀ a, P a → AllOk Q (f a)) : AllOk Q (x >>= f) := by
  cases x with
  | ok a => exact hf a (h a rfl)
  | _ => intro b e; cases e

theorem AllOk.any {α : Type} (x : Res α) : AllOk (fun _ => True) x := fun _ _ => trivial

theorem AllOk.ite {α : Type} {P : α → Prop} {p : Prop} [Decidable p] {a b : Res α} (h : AllOk P a) (h2 : AllOk P b) :
    AllOk P (if p then a else b) := by
  by_cases hp : p
  · rw [if_pos hp]; exact h
  · rw [if_neg hp]; exact h2

theorem parseNumber_flat (cfg : Cfg) (s : Bytes) : AllOk (fun p => nesting p.1 = 1) (parseNumber cfg s) := by
  unfold parseNumber
  refine .ite ((AllOk.any _).bind (fun _ _ => .pure rfl)) ?_
  dsimp only
  cases (readSign s).2 with
  | nil => exact .err
  | cons c cs =>
    refine .ite (.ite ?_ (.ite (.ite (.pure rfl) (.pure ?_)) (.pure rfl))) .err
    · unfold parseDouble
      dsimp only
      exact .ite .err ((AllOk.any _).bind (fun _ _ => (AllOk.any _).bind (fun _ _ => .pure rfl)))
    · unfold valueOfInt
      split <;> rfl

theorem parseD_nesting (cfg : Cfg) (f : Nat) : ∀ lim,
    (∀ s, AllOk (fun p => nesting p.1 ≤ lim) (parseVD cfg lim f s)) ∧
    (∀ s, AllOk (fun p => ∀ m ∈ p.1, nesting m.2 ≤ lim) (parseMembersD cfg lim f s)) ∧
    (∀ s, AllOk (fun p => ∀ v ∈ p.1, nesting v ≤ lim) (parseItemsD cfg lim f s)) := by
  induction f with
  | zero =>
    intro lim
    refine ⟨fun s => ?_, fun s => ?_, fun s => ?_⟩
    · cases lim with
      | zero => rw [parseVD]; intro b e; cases e
      | succ l => rw [parseVD]; intro b e; cases e
    · rw [parseMembersD]; intro b e; cases e
    · rw [parseItemsD]; intro b e; cases e
  | succ f ih =>
    intro lim
    refine ⟨fun s => ?_, fun s => ?_, fun s => ?_⟩
    · cases lim with
      | zero => rw [parseVD]; intro b e; cases e
      | succ l =>
        rw [parseVD]
        cases skipWs s with
        | nil => exact .err
        | cons c r =>
          dsimp only
          refine .ite ?_ (.ite ?_ (.ite ?_ (.ite ?_ (.ite ?_ (.ite ?_ (.ite ?_ .err))))))
          · cases skipWs r with
            | nil => exact .err
            | cons c' r' =>
              refine .ite (.pure (by simp [nesting, nestingM])) (((ih l).2.1 _).bind (fun m hm => ?_))
              unfold finishObj
              dsimp only
              refine .ite .err (.pure ?_)
              have := nestingM_le.2 (fun x hx => hm x (mkObject_sub _ hx))
              show nestingM _ + 1 ≤ l + 1
              omega
          · cases skipWs r with
            | nil => exact .err
            | cons c' r' =>
              refine .ite (.pure (by simp [nesting, nestingL])) (((ih l).2.2 _).bind (fun m hm => .pure ?_))
              have := nestingL_le.2 hm
              show nestingL _ + 1 ≤ l + 1
              omega
          · exact (AllOk.any _).bind (fun t _ => .pure (by unfold stringValue; split <;> (try split) <;> simp [nesting]))
          · exact (AllOk.any _).bind (fun t _ => .pure (by simp [nesting]))
          · exact (AllOk.any _).bind (fun t _ => .pure (by simp [nesting]))
          · exact (AllOk.any _).bind (fun t _ => .pure (by simp [nesting]))
          · intro p hp
            have := parseNumber_flat cfg _ p hp
            omega
    · cases s with
      | nil => rw [parseMembersD]; exact .err
      | cons q r =>
        rw [parseMembersD]
        refine .ite ((AllOk.any _).bind (fun k _ => ?_)) .err
        cases skipWs k.2 with
        | nil => exact .err
        | cons c r2 =>
          refine .ite (((ih lim).1 _).bind (fun v hv => ?_)) .err
          cases skipWs v.2 with
          | nil => exact .err
          | cons c2 r4 =>
            refine .ite (.pure (by simpa using hv)) (.ite (((ih lim).2.1 _).bind (fun m hm => .pure ?_)) .err)
            intro x hx
            rcases List.mem_cons.1 hx with rfl | hx
            · exact hv
            · exact hm x hx
    · rw [parseItemsD]
      refine ((ih lim).1 _).bind (fun v hv => ?_)
      cases skipWs v.2 with
      | nil => exact .err
      | cons c2 r4 =>
        refine .ite (.pure (by simpa using hv)) (.ite (((ih lim).2.2 _).bind (fun m hm => .pure ?_)) .err)
        intro x hx
        rcases List.mem_cons.1 hx with rfl | hx
        · exact hv
        · exact hm x hx

/-- C163 fails for documents too: a document whose value has more levels than there is room for ends the program, although
it is a correct document. -/
theorem C163_violation_document (cfg : Cfg) (lim : Nat) (s : Bytes) (v : JV) (r : Bytes) (h : parse cfg s = .ok (v, r))
    (hn : lim < nesting v) : parseD cfg lim s = .abort := by
  rcases C163_same cfg lim s with h1 | h1
  · exact h1
  · rw [h] at h1
    have := (parseD_nesting cfg _ lim).1 s _ h1
    simp only at this
    omega

example : parse {} (ascii "[[[1]]]") = .ok (.arr [.arr [.arr [.num (.uint 1)]]], []) ∧
    nesting (.arr [.arr [.arr [.num (.uint 1)]]]) = 4 ∧ parseD {} 4 (ascii "[[[1]]]") = parse {} (ascii "[[[1]]]") := by
  decide +kernel

end Imt.Props
