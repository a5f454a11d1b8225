import Verif.Lemmas.BinJson
/-!
# The binary parser does not look ahead

With a source that throws at its end, a call that did not end by an exception gives the same when more bytes follow.
-/
namespace Imt.BinJson
open Imt

/-- The state with `q` appended to the unread bytes. -/
def PS.ext (q : Bytes) (ps : PS) : PS := { ps with s := ps.s ++ q }

/-- The same outcome with `q` left in addition. -/
def extR {α : Type} (q : Bytes) : Res (α × PS) → Res (α × PS)
  | .ok t => .ok (t.1, t.2.ext q)
  | x => x

/-- A reader that does not look ahead: unless it ended by an exception, more bytes change nothing. -/
def Blind {α : Type} (q : Bytes) (g : PS → Res (α × PS)) : Prop :=
  ∀ ps, g ps = .err ∨ g (ps.ext q) = extR q (g ps)

theorem blind_bind {α β : Type} {q : Bytes} {g : PS → Res (α × PS)} {h : α × PS → Res (β × PS)} (hg : Blind q g)
    (hh : ∀ a, Blind q (fun ps => h (a, ps))) : Blind q (fun ps => g ps >>= h) := by
  intro ps
  dsimp only
  rcases hg ps with e | e
  · left; rw [e]; rfl
  · rw [e]
    cases hx : g ps with
    | ok t => exact hh t.1 t.2
    | err => left; rfl
    | _ => right; rfl

theorem blind_const {α β : Type} {q : Bytes} (x : Res α) {h : α → PS → Res (β × PS)} (hh : ∀ a, Blind q (h a)) :
    Blind q (fun ps => x >>= fun a => h a ps) := by
  intro ps
  dsimp only
  cases hx : x with
  | ok a => exact hh a ps
  | err => left; rfl
  | _ => right; rfl

theorem blind_pure {α : Type} {q : Bytes} (v : α) : Blind q (fun ps => Res.ok (v, ps)) := fun _ => .inr rfl

theorem blind_stop {α : Type} {q : Bytes} {x : Res (α × PS)} (hx : ∀ y, x ≠ .ok y) : Blind q (fun _ => x) := by
  intro ps
  cases x with
  | ok y => exact absurd rfl (hx y)
  | _ => exact .inr rfl

theorem blind_ite {α : Type} {q : Bytes} {c : Prop} [Decidable c] {g h : PS → Res (α × PS)} (hg : Blind q g) (hh : Blind q h) :
    Blind q (fun ps => if c then g ps else h ps) := by
  intro ps
  by_cases hc : c
  · simp only [hc, if_true]; exact hg ps
  · simp only [hc, if_false]; exact hh ps

/-- One step of a reader. -/
local macro "step " t:term : tactic => `(tactic| (refine blind_bind $t fun _ => ?_; dsimp only))

variable {env : Env} {q : Bytes}

theorem blind_next (he : env.eofThrows = true) : Blind q (next env) := by
  intro ps
  obtain ⟨s, hist, ki⟩ := ps
  cases s with
  | nil => left; simp [next, he]
  | cons c r => right; rfl

theorem blind_readN (he : env.eofThrows = true) (n : Nat) : Blind q (readN env n) := by
  induction n with
  | zero => exact blind_pure []
  | succ n ih =>
    show Blind q (fun ps => readN env (n + 1) ps)
    simp only [readN]
    step (blind_next he)
    step ih
    exact blind_pure _

theorem blind_parseInteger (he : env.eofThrows = true) (tag : Nat) : Blind q (parseInteger env tag) := by
  show Blind q (fun ps => parseInteger env tag ps)
  simp only [parseInteger]
  split
  all_goals first | exact blind_pure _ | (step (blind_readN he _); exact blind_pure _)

theorem blind_readToken (he : env.eofThrows = true) (sz x : Nat) : Blind q (readToken env sz x) := by
  show Blind q (fun ps => readToken env sz x ps)
  simp only [readToken]
  refine blind_const _ fun a => ?_
  step (blind_readN he _)
  exact blind_const _ fun c => blind_pure _

theorem blind_parseString (he : env.eofThrows = true) (tag : Nat) (enc : Bool) : Blind q (parseString env tag enc) := by
  show Blind q (fun ps => parseString env tag enc ps)
  simp only [parseString]
  step (blind_parseInteger he tag)
  rename_i n
  by_cases h0 : n = 0
  · simp only [h0, if_true]; exact blind_pure _
  · simp only [h0, if_false]
    cases enc with
    | false =>
      simp only [if_true]
      step (blind_next he)
      rename_i x
      refine blind_const _ fun _ => ?_
      by_cases h1 : x / 64 = 2
      · simp only [h1, if_true]; exact blind_readToken he _ _
      · simp only [h1, if_false]
        step (blind_readN he _)
        exact blind_pure _
    | true =>
      simp only [Bool.true_eq_false, if_false]
      exact blind_const _ fun _ => blind_readN he _

theorem storeKey_ext (ps : PS) (k : Bytes) :
    storeKey (ps.ext q) k = match storeKey ps k with | .ok p => .ok (p.ext q) | x => x := by
  obtain ⟨s, hist, ki⟩ := ps
  show storeKey ⟨s ++ q, hist, ki⟩ k = _
  unfold storeKey
  dsimp only
  by_cases hc : hist.length = ki % 128
  · rw [if_pos hc, if_pos hc]; rfl
  · rw [if_neg hc, if_neg hc]
    by_cases hd : ki % 128 < hist.length
    · rw [if_pos hd, if_pos hd]; rfl
    · rw [if_neg hd, if_neg hd]

theorem blind_parse (he : env.eofThrows = true) (f : Nat) :
    Blind q (parseItem env f) ∧ ∀ n slots, Blind q (parseItems env f n slots) := by
  induction f with
  | zero =>
    refine ⟨?_, fun n slots => ?_⟩
    · intro ps; right; rw [parseItem, parseItem]; rfl
    · intro ps; right; rw [parseItems, parseItems]; rfl
  | succ f ih =>
    obtain ⟨ihV, ihI⟩ := ih
    have berr : Blind q (fun _ => (Res.err : Res (BV × PS))) := blind_stop (by intro y e; cases e)
    have bub : Blind q (fun _ => (Res.ub : Res (List BV × PS))) := blind_stop (by intro y e; cases e)
    refine ⟨?_, fun n slots => ?_⟩
    · show Blind q (fun ps => parseItem env (f + 1) ps)
      simp only [parseItem]
      step (blind_next he)
      rename_i tag
      have cont : ∀ (tag : Nat) (sh : Shape), Blind q (fun ps => do
          let n ← parseInteger env tag ps
          let slots ← allocArr env n.1
          let r ← parseItems env f n.1 slots n.2
          pure (BV.node [] sh r.1, r.2)) := by
        intro tag sh
        step (blind_parseInteger he tag)
        refine blind_const _ fun slots => ?_
        step (ihI _ slots)
        exact blind_pure _
      split
      · refine blind_ite (c := tag = 1) (blind_pure _) (blind_ite (c := tag = 4) (blind_pure _)
          (blind_ite (c := tag = 3) (blind_pure _) (blind_ite (c := tag = 2) (blind_pure _)
          (blind_ite (c := tag = 6) ?_ (blind_ite (c := tag = 5) ?_ (blind_ite (c := tag = 15) ?_ berr))))))
        · step (blind_readN he _); exact blind_pure _
        · step (blind_readN he _); exact blind_pure _
        · step (blind_next he)
          rename_i o
          exact blind_ite (c := o / 16 = 5) (cont o (.obj true)) berr
      · exact cont tag _
      · exact cont tag _
      · step (blind_parseString he _ _); exact blind_pure _
      · step (blind_parseString he _ _)
        rename_i b
        exact blind_pure (BV.node [] (if b = [] then Shape.str [] else if env.binEnc = true then Shape.bin b else Shape.str b) [])
      · step (blind_parseInteger he _); exact blind_pure _
      · step (blind_parseInteger he _)
        exact blind_const _ fun sh => blind_pure _
      · step (blind_parseString he _ _)
        rename_i k
        have last : Blind q (fun ps => parseItem env f ps >>= fun v => pure (v.1.withKey k, v.2)) := by
          step ihV; exact blind_pure _
        intro ps
        dsimp only
        rw [storeKey_ext]
        cases hs : storeKey ps k with
        | ok p1 => exact last p1
        | err => left; rfl
        | _ => right; rfl
      · intro ps
        have hh : histKey (ps.ext q) tag = histKey ps tag := rfl
        dsimp only
        rw [hh]
        have last : Blind q (fun p => parseItem env f p >>= fun v => pure (v.1.withKey (histKey ps tag), v.2)) := by
          step ihV; exact blind_pure _
        exact last ps
    · cases n with
      | zero =>
        show Blind q (fun ps => parseItems env (f + 1) 0 slots ps)
        simp only [parseItems]
        exact blind_pure _
      | succ n =>
        show Blind q (fun ps => parseItems env (f + 1) (n + 1) slots ps)
        simp only [parseItems]
        step ihV
        refine blind_ite bub ?_
        step (ihI _ _)
        exact blind_pure _

end Imt.BinJson
