import Verif.Model.RpcPrepared
import Verif.Props.RpcClient
/-!
# C164: prepared calls are sent once and report once
-/
namespace Imt.Props
open Imt Imt.RpcPrep
open Imt.Rpc (Result findId)

theorem findId_perm {l : List (Nat × Nat)} (hn : (l.map (·.1)).Nodup) {id f : Nat} (h : findId l id = some f) :
    l.Perm ((id, f) :: l.filter (fun e => e.1 != id)) := by
  induction l with
  | nil => cases h
  | cons e l ih =>
    rw [List.map_cons, List.nodup_cons] at hn
    by_cases he : e.1 = id
    · have hf : e.2 = f := by
        unfold findId at h
        rw [List.find?_cons_of_pos (by simp [he])] at h
        simpa using h
      have hall : l.filter (fun e => e.1 != id) = l := by
        rw [List.filter_eq_self]
        intro x hx
        have : x.1 ≠ id := fun hc => hn.1 (List.mem_map.2 ⟨x, hx, by rw [hc, he]⟩)
        simpa using this
      rw [List.filter_cons_of_neg (by simp [he]), hall, ← he, ← hf]
    · have h' : findId l id = some f := by
        unfold findId at h ⊢
        rwa [List.find?_cons_of_neg (by simp [he])] at h
      rw [List.filter_cons_of_pos (by simp [he])]
      exact ((ih hn.2 h').cons e).trans (List.Perm.swap _ _ _)

/-- What holds after the operations `ops`. -/
structure PrepInv (ops : List Op) (s : RpcPrep.St) : Prop where
  toks : (s.calls.map (·.1) ++ s.pend.map (·.2)).Perm (List.range s.next)
  ids : (s.pend.map (·.1)).Nodup
  pend : ∀ id f, (id, f) ∈ s.pend → (f, id) ∈ s.given
  calls : ∀ f r, (f, some r) ∈ s.calls → ∃ id, (f, id) ∈ s.given ∧ (Op.response id r ∈ ops ∨ Op.cancel id r ∈ ops)
  given : s.given.map (·.1) = List.range s.next

theorem prepInv_mono {ops ops' : List Op} {s : RpcPrep.St} (h : PrepInv ops s) (hs : ∀ o ∈ ops, o ∈ ops') : PrepInv ops' s :=
  ⟨h.toks, h.ids, h.pend, fun f r hc => (h.calls f r hc).imp fun _ hg => ⟨hg.1, hg.2.imp (hs _) (hs _)⟩, h.given⟩

theorem prepInv_register {ops : List Op} {s : RpcPrep.St} (h : PrepInv ops s) (id : Nat) : PrepInv ops (register s id) := by
  unfold register
  dsimp only
  cases hf : findId s.pend id with
  | some t =>
    refine ⟨?_, h.ids, ?_, ?_, ?_⟩
    · simp only [List.map_append, List.map_cons, List.map_nil]
      rw [List.range_succ, List.append_assoc, List.singleton_append]
      exact List.perm_middle.trans ((h.toks.cons _).trans (List.perm_append_comm (l₁ := [s.next])))
    · intro i f hm; exact List.mem_append_left _ (h.pend i f hm)
    · intro f r hm
      rcases List.mem_append.1 hm with hm | hm
      · obtain ⟨i, hg, ho⟩ := h.calls f r hm
        exact ⟨i, List.mem_append_left _ hg, ho⟩
      · simp at hm
    · simp only [List.map_append, List.map_cons, List.map_nil, h.given, List.range_succ]
  | none =>
    refine ⟨?_, ?_, ?_, ?_, ?_⟩
    · simp only [List.map_cons]
      rw [List.range_succ]
      exact List.perm_middle.trans ((h.toks.cons _).trans (List.perm_append_comm (l₁ := [s.next])))
    · simp only [List.map_cons, List.nodup_cons]
      refine ⟨fun hm => ?_, h.ids⟩
      obtain ⟨e, he, e1⟩ := List.mem_map.1 hm
      exact findId_none hf e he e1
    · intro i f hm
      rcases List.mem_cons.1 hm with hm | hm
      · cases hm; exact List.mem_append_right _ (by simp)
      · exact List.mem_append_left _ (h.pend i f hm)
    · intro f r hm
      obtain ⟨i, hg, ho⟩ := h.calls f r hm
      exact ⟨i, List.mem_append_left _ hg, ho⟩
    · simp only [List.map_append, List.map_cons, List.map_nil, h.given, List.range_succ]

theorem prepInv_finish {ops : List Op} {s : RpcPrep.St} (h : PrepInv ops s) (id : Nat) (r : Result)
    (ho : Op.response id r ∈ ops ∨ Op.cancel id r ∈ ops) : PrepInv ops (finish s id r) := by
  unfold finish
  cases hf : findId s.pend id with
  | none => exact h
  | some t =>
    have hp := findId_perm h.ids hf
    refine ⟨?_, ?_, ?_, ?_, h.given⟩
    · refine List.Perm.trans ?_ h.toks
      simp only [List.map_append, List.map_cons, List.map_nil, List.append_assoc, List.singleton_append]
      refine List.Perm.append_left _ ?_
      have := hp.map (·.2)
      rw [List.map_cons] at this
      exact this.symm
    · have := (hp.map (·.1)).nodup_iff.1 h.ids
      rw [List.map_cons, List.nodup_cons] at this
      exact this.2
    · intro i f hm
      exact h.pend i f (List.mem_of_mem_filter hm)
    · intro f r' hm
      rcases List.mem_append.1 hm with hm | hm
      · exact h.calls f r' hm
      · simp only [List.mem_singleton, Prod.mk.injEq, Option.some.injEq] at hm
        obtain ⟨rfl, rfl⟩ := hm
        exact ⟨id, h.pend _ _ (findId_some hf), ho⟩

theorem prepInv_other {ops : List Op} {s : RpcPrep.St} (h : PrepInv ops s) (c : Nat) (p : List Prep) (st : List Nat) :
    PrepInv ops { s with counter := c, prep := p, sent := st } := ⟨h.toks, h.ids, h.pend, h.calls, h.given⟩

theorem prepInv_step {ops : List Op} {s : RpcPrep.St} (h : PrepInv ops s) (o : Op) : PrepInv (ops ++ [o]) (RpcPrep.step s o) := by
  have h := prepInv_mono h (ops' := ops ++ [o]) (fun _ hm => List.mem_append_left _ hm)
  have hm : o ∈ ops ++ [o] := List.mem_append_right _ (by simp)
  generalize ops ++ [o] = l at h hm
  cases o with
  | prepare => exact prepInv_other h _ _ _
  | copy p =>
    simp only [RpcPrep.step]
    split
    · exact prepInv_other h _ _ _
    · exact h
  | async p thrown =>
    simp only [RpcPrep.step]
    split
    · exact prepInv_other (prepInv_register h _) _ _ _
    · exact h
  | sync p =>
    simp only [RpcPrep.step]
    split
    · exact prepInv_other (prepInv_register h _) _ _ _
    · exact h
  | response id r => exact prepInv_finish h id r (.inl hm)
  | cancel id r => exact prepInv_finish h id r (.inr hm)

theorem prepInv_run (ops : List Op) : PrepInv ops (RpcPrep.run {} ops) := by
  have : ∀ (l done : List Op) (s : RpcPrep.St), PrepInv done s → PrepInv (done ++ l) (RpcPrep.run s l) := by
    intro l
    induction l with
    | nil => intro done s h; rw [List.append_nil]; exact h
    | cons o l ih =>
      intro done s h
      have := ih (done ++ [o]) _ (prepInv_step h o)
      rw [List.append_assoc] at this
      exact this
  exact this ops [] {} ⟨List.Perm.refl _, List.nodup_nil, fun _ _ h => absurd h List.not_mem_nil,
    fun _ _ h => absurd h List.not_mem_nil, rfl⟩

/-- **C164.** Whatever is done with prepared calls – used more times, copied, sendings that throw, responses and cancellations with any
identifiers – every function a call took is called at most once before the client is destroyed, and exactly once in the end. -/
theorem C164_once (ops : List Op) :
    ((run {} ops).calls.map (·.1)).Nodup ∧ (∀ f, f ∈ (run {} ops).given.map (·.1) ↔ f < (run {} ops).next) ∧
    ∀ uses calls, destroy uses (run {} ops) = .ok calls →
      (calls.map (·.1)).Nodup ∧ ∀ f, f ∈ calls.map (·.1) ↔ f ∈ (run {} ops).given.map (·.1) := by
  have h := prepInv_run ops
  refine ⟨?_, ?_, ?_⟩
  · exact (List.nodup_append.1 (h.toks.nodup_iff.2 List.nodup_range)).1
  · intro f; rw [h.given, List.mem_range]
  · intro uses calls hd
    unfold destroy at hd
    split at hd
    · cases hd
    · cases hd
      have hm : ((run {} ops).calls ++ (run {} ops).pend.map (fun e => (e.2, (none : Option Result)))).map (·.1) =
          (run {} ops).calls.map (·.1) ++ (run {} ops).pend.map (·.2) := by
        rw [List.map_append, List.map_map]; rfl
      rw [hm]
      refine ⟨h.toks.nodup_iff.2 List.nodup_range, fun f => ?_⟩
      rw [h.toks.mem_iff, h.given]

/-- **C164.** A function called with a result gets one which arrived, or was given to a cancellation, for the identifier of its own call. -/
theorem C164_own (ops : List Op) (f : Nat) (r : Result) (h : (f, some r) ∈ (run {} ops).calls) :
    ∃ id, (f, id) ∈ (run {} ops).given ∧ (∀ id', (f, id') ∈ (run {} ops).given → id' = id) ∧
      (Op.response id r ∈ ops ∨ Op.cancel id r ∈ ops) := by
  have hi := prepInv_run ops
  obtain ⟨id, hg, ho⟩ := hi.calls f r h
  refine ⟨id, hg, ?_, ho⟩
  have hn : ((run {} ops).given.map (·.1)).Nodup := by rw [hi.given]; exact List.nodup_range
  intro id' hg'
  have : ∀ (l : List (Nat × Nat)), (l.map (·.1)).Nodup → (f, id) ∈ l → (f, id') ∈ l → id' = id := by
    intro l
    induction l with
    | nil => intro _ h; cases h
    | cons e l ih =>
      intro hn h1 h2
      rw [List.map_cons, List.nodup_cons] at hn
      rcases List.mem_cons.1 h1 with h1 | h1
      · rcases List.mem_cons.1 h2 with h2 | h2
        · rw [← h1] at h2; cases h2; rfl
        · exact absurd (List.mem_map.2 ⟨_, h2, by rw [← h1]⟩) hn.1
      · rcases List.mem_cons.1 h2 with h2 | h2
        · exact absurd (List.mem_map.2 ⟨_, h1, by rw [← h2]⟩) hn.1
        · exact ih hn.2 h1 h2
  exact this _ hn hg hg'

/-- **C164.** A call that was sent before sends nothing and does not take the function. -/
theorem C164_second (s : RpcPrep.St) (p id : Nat) (thrown : Bool) (h : s.prep[p]? = some ⟨id, true⟩) :
    step s (.async p thrown) = s ∧ step s (.sync p) = s := by
  constructor <;> simp only [RpcPrep.step, h]

/-- **C164.** A call that was not sent before sends its request and takes the function, also when the sending throws; a synchronous one
is marked as executed even then. -/
theorem C164_first (s : RpcPrep.St) (p id : Nat) (thrown : Bool) (h : s.prep[p]? = some ⟨id, false⟩) :
    (step s (.async p thrown)).sent = s.sent ++ [id] ∧ (step s (.async p thrown)).given = s.given ++ [(s.next, id)] ∧
    (step s (.async p thrown)).prep[p]? = some ⟨id, !thrown⟩ ∧
    (step s (.sync p)).sent = s.sent ++ [id] ∧ (step s (.sync p)).given = s.given ++ [(s.next, id)] ∧
    (step s (.sync p)).prep[p]? = some ⟨id, true⟩ := by
  obtain ⟨hlt, he⟩ := List.getElem?_eq_some_iff.1 h
  simp only [RpcPrep.step, h, register]
  cases findId s.pend id <;> cases thrown <;> simp [he, hlt]

/-- The sending does not throw and prepared calls are not copied. -/
def plain : Op → Bool
  | .async _ thrown => !thrown
  | .copy _ => false
  | _ => true

/-- What holds for such operations. -/
structure PlainInv (s : RpcPrep.St) : Prop where
  ids : (s.prep.map (·.id)).Nodup
  le : ∀ c ∈ s.prep, c.id ≤ s.counter
  sent : s.sent.Nodup
  exec : ∀ id ∈ s.sent, (⟨id, true⟩ : Prep) ∈ s.prep
  pend : ∀ e ∈ s.pend, e.1 ∈ s.sent
  some : ∀ f o, (f, o) ∈ s.calls → o ≠ none

theorem plainInv_send {s : RpcPrep.St} (h : PlainInv s) {p id : Nat} (hp : s.prep[p]? = some ⟨id, false⟩) :
    PlainInv { register s id with sent := (register s id).sent ++ [id], prep := (register s id).prep.set p ⟨id, true⟩ } := by
  obtain ⟨hlt, hpe⟩ := List.getElem?_eq_some_iff.1 hp
  have hns : id ∉ s.sent := by
    intro hm
    have hx := h.exec id hm
    obtain ⟨q, hq, hqe⟩ := List.getElem_of_mem hx
    have hinj : q = p := by
      refine (List.getElem_inj (xs := s.prep.map (·.id)) (h₀ := by simpa using hq) (h₁ := by simpa using hlt) h.ids).1 ?_
      simp [hqe, hpe]
    subst hinj
    rw [hqe] at hpe
    cases hpe
  have hfree : findId s.pend id = none := by
    cases hf : findId s.pend id with
    | none => rfl
    | some t => exact absurd (h.pend _ (findId_some hf)) hns
  have hreg : register s id = { s with given := s.given ++ [(s.next, id)], next := s.next + 1, pend := (id, s.next) :: s.pend } := by
    unfold register; simp only [hfree]
  rw [hreg]
  refine ⟨?_, ?_, ?_, ?_, ?_, h.some⟩
  · have : (s.prep.set p ⟨id, true⟩).map (·.id) = s.prep.map (·.id) := by
      rw [List.map_set]
      refine List.ext_getElem (by simp) fun i h1 h2 => ?_
      rw [List.getElem_set]
      split
      · rename_i e; subst e; simp [hpe]
      · rfl
    show ((s.prep.set p ⟨id, true⟩).map (·.id)).Nodup
    rw [this]; exact h.ids
  · intro c hc
    rcases List.mem_or_eq_of_mem_set hc with hc | hc
    · exact h.le c hc
    · subst hc
      exact h.le ⟨id, false⟩ (hpe ▸ List.getElem_mem hlt)
  · refine List.nodup_append.2 ⟨h.sent, by simp, ?_⟩
    intro a ha b hb
    rw [List.mem_singleton] at hb
    subst hb
    exact fun e => hns (e ▸ ha)
  · intro i hi
    rcases List.mem_append.1 hi with hi | hi
    · obtain ⟨q, hq, hqe⟩ := List.getElem_of_mem (h.exec i hi)
      have hne : p ≠ q := fun e => by subst e; rw [hqe] at hpe; cases hpe
      exact List.mem_iff_getElem.2 ⟨q, by simpa using hq, by rw [List.getElem_set_ne hne, hqe]⟩
    · rw [List.mem_singleton] at hi
      subst hi
      exact List.mem_iff_getElem.2 ⟨p, by simpa using hlt, by rw [List.getElem_set_self]⟩
  · intro e he
    rcases List.mem_cons.1 he with he | he
    · subst he; exact List.mem_append_right _ (by simp)
    · exact List.mem_append_left _ (h.pend e he)

theorem plainInv_step {s : RpcPrep.St} (h : PlainInv s) (o : Op) (ho : plain o = true) : PlainInv (step s o) := by
  cases o with
  | prepare =>
    refine ⟨?_, ?_, h.sent, ?_, h.pend, h.some⟩
    · show ((s.prep ++ [(⟨s.counter + 1, false⟩ : Prep)]).map (·.id)).Nodup
      rw [List.map_append]
      refine List.nodup_append.2 ⟨h.ids, by simp, ?_⟩
      intro a ha b hb
      obtain ⟨c, hc, rfl⟩ := List.mem_map.1 ha
      simp only [List.map_cons, List.map_nil, List.mem_singleton] at hb
      have := h.le c hc
      omega
    · intro c hc
      show c.id ≤ s.counter + 1
      rcases List.mem_append.1 hc with hc | hc
      · have := h.le c hc; omega
      · rw [List.mem_singleton] at hc; subst hc; exact Nat.le_refl _
    · intro i hi; exact List.mem_append_left _ (h.exec i hi)
  | copy p => cases ho
  | async p thrown =>
    have ht : thrown = false := by simpa [plain] using ho
    subst ht
    simp only [RpcPrep.step]
    split
    · rename_i id hp
      exact plainInv_send h hp
    · exact h
  | sync p =>
    simp only [RpcPrep.step]
    split
    · rename_i id hp
      exact plainInv_send h hp
    · exact h
  | response id r =>
    show PlainInv (finish s id r)
    unfold finish
    split
    · exact h
    · refine ⟨h.ids, h.le, h.sent, h.exec, fun e he => h.pend e (List.mem_of_mem_filter he), ?_⟩
      intro f o hm
      rcases List.mem_append.1 hm with hm | hm
      · exact h.some f o hm
      · rw [List.mem_singleton] at hm; cases hm; exact fun e => by cases e
  | cancel id r =>
    show PlainInv (finish s id r)
    unfold finish
    split
    · exact h
    · refine ⟨h.ids, h.le, h.sent, h.exec, fun e he => h.pend e (List.mem_of_mem_filter he), ?_⟩
      intro f o hm
      rcases List.mem_append.1 hm with hm | hm
      · exact h.some f o hm
      · rw [List.mem_singleton] at hm; cases hm; exact fun e => by cases e

/-- **C164** (partial). When no sending throws and no prepared call is copied, every request is sent at most once and functions are called
only with results that arrived or were given to a cancellation. Missing: the cases of the violations. -/
theorem C164_sent_partial (ops : List Op) (h : ∀ o ∈ ops, plain o = true) :
    (run {} ops).sent.Nodup ∧ ∀ f o, (f, o) ∈ (run {} ops).calls → o ≠ none := by
  have : ∀ (l : List Op) (s : RpcPrep.St), PlainInv s → (∀ o ∈ l, plain o = true) → PlainInv (run s l) := by
    intro l
    induction l with
    | nil => intro s hs _; exact hs
    | cons o l ih =>
      intro s hs hl
      exact ih _ (plainInv_step hs o (hl o (by simp))) (fun o ho => hl o (by simp [ho]))
  have hi := this ops {} ⟨List.nodup_nil, fun _ h => absurd h List.not_mem_nil, List.nodup_nil, fun _ h => absurd h List.not_mem_nil,
    fun _ h => absurd h List.not_mem_nil, fun _ _ h => absurd h List.not_mem_nil⟩ h
  exact ⟨hi.sent, hi.some⟩

/-- A call, its answer, a second use of the call: one request, one function called. -/
example : run {} [.prepare, .async 0 false, .response 1 ⟨.null, false⟩, .async 0 false, .sync 0] =
    { counter := 1, prep := [⟨1, true⟩], next := 1, pend := [], sent := [1], given := [(0, 1)],
      calls := [(0, some ⟨.null, false⟩)] } ∧
    (∀ o ∈ [Op.prepare, .async 0 false, .response 1 ⟨.null, false⟩, .async 0 false, .sync 0], plain o = true) := by
  exact ⟨rfl, by decide⟩

/-- **C164, violation.** When the sending throws in `>>`, the call is not marked as executed and stays registered. Used again, its request is
sent a second time; the function of the sending that succeeded gets the empty result at once, the result goes to the function of the
sending that failed. -/
theorem C164_violation_resent (r : Result) :
    (run {} [.prepare, .async 0 true, .async 0 false]).calls = [(1, none)] ∧
    (run {} [.prepare, .async 0 true, .async 0 false, .response 1 r]).calls = [(1, none), (0, some r)] ∧
    (run {} [.prepare, .async 0 true, .async 0 false]).sent = [1, 1] := ⟨rfl, rfl, rfl⟩

/-- **C164, violation.** A copy of a prepared call is not executed by executing the original: its request is sent again under the same
identifier and its function gets the empty result. -/
theorem C164_violation_copy : (run {} [.prepare, .copy 0, .async 0 false, .async 1 false]).calls = [(1, none)] ∧
    (run {} [.prepare, .copy 0, .async 0 false, .async 1 false]).sent = [1, 1] := ⟨rfl, rfl⟩

/-- **C164, violation.** Functions of calls pending when the client is destroyed are called after its lock was destroyed: one that uses the
client (to try again, for instance) uses what is gone. -/
theorem C164_violation_destroy (s : RpcPrep.St) (uses : Nat → Bool) (id f : Nat) (h : (id, f) ∈ s.pend) (hu : uses f = true) :
    destroy uses s = .ub := by
  unfold destroy
  rw [if_pos (List.any_eq_true.2 ⟨_, h, hu⟩)]

example : ((1, 0) : Nat × Nat) ∈ (run {} [.prepare, .async 0 false]).pend := by decide

end Imt.Props
