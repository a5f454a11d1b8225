import Verif.Model.RpcLife
/-!
# C140: a request lives as long as somebody holds it

The reference counter of a request and the error it sends from its destructor.
-/
namespace Imt.Props
open Imt Imt.RpcLife

/-- A new request, held once. -/
def rlNew (can : Bool) : St := { can := can }

/-- A program in which no callback keeps the pointer it is given by the error sent from the destructor. -/
def rlPolite (evs : List Ev) : Prop := ∀ e ∈ evs, ∀ k, e = Ev.drop k → k = 0

/-- A program in which the server outlives the request. -/
def rlServerStays (evs : List Ev) : Prop := Ev.serverGone ∉ evs

/-- What holds all the time: the counter is the number of pointers, the memory is there exactly while somebody holds one, the
destructor has run exactly when the memory is gone. -/
structure RlInv (s : St) : Prop where
  cnt : s.rc = s.held
  gone : s.freed = true ↔ s.held = 0
  dt : s.dtors = if s.freed then 1 else 0
  cb : s.cbsFreed = s.dtors
  ans : s.answers = if s.sent then 1 else 0
  can : s.sent = true → s.can = true
  fin : s.freed = true → s.srv = true → s.can = true → s.sent = true

theorem rl_callback (s : St) (k : Nat) : callback s k = if s.rc + k = 0 then .ub else
    .ok { s with rc := s.rc + k, held := s.held + k, answers := s.answers + 1, sent := true } := by
  have : s.rc + 1 + k - 1 = s.rc + k := by omega
  simp [callback, this]

theorem rl_step_inv (s s' : St) (e : Ev) (hi : RlInv s) (hp : ∀ k, e = Ev.drop k → k = 0)
    (h : step s e = .ok s') : RlInv s' := by
  obtain ⟨h1, h2, h3, h4, h5, h6, h7⟩ := hi
  obtain ⟨rc, held, freed, srv, sl, sent, can, dt, an, cf⟩ := s
  simp only at *
  cases e with
  | copy =>
    simp only [step] at h
    split at h
    · cases h
    · split at h
      · cases h
      · cases h
        constructor <;> simp_all
  | answer k =>
    simp only [step] at h
    split at h
    · cases h
    · split at h
      · cases h
      · split at h
        · rw [rl_callback] at h
          rw [if_neg (by simp only; omega)] at h
          cases h
          constructor <;> simp_all
        · cases h
          constructor <;> simp_all
  | exec =>
    simp only [step] at h
    split at h
    · cases h
    · split at h
      · cases h
      · cases h
        constructor <;> simp_all
  | serverGone =>
    simp only [step] at h
    cases h
    constructor <;> simp_all
  | drop k =>
    have hk := hp k rfl
    subst hk
    simp only [step] at h
    split at h
    · cases h
    · split at h
      · cases h
      · split at h
        · simp only [destroy, noResult] at h
          cases sent <;> cases srv <;> cases sl <;> cases can <;> simp_all [rl_callback] <;> subst h <;>
            constructor <;> simp_all <;> omega
        · cases h
          constructor <;> simp_all <;> omega

theorem rl_step_ub (s : St) (e : Ev) (hi : RlInv s) (hl : s.srvLive = true) : step s e ≠ .ub ∧ step s e ≠ .abort ∧ step s e ≠ .fuel := by
  obtain ⟨h1, h2, h3, h4, h5, h6, h7⟩ := hi
  obtain ⟨rc, held, freed, srv, sl, sent, can, dt, an, cf⟩ := s
  simp only at *
  subst hl
  cases e with
  | drop k =>
    simp only [step, destroy, noResult]
    cases freed <;> cases sent <;> cases srv <;> cases can <;> by_cases hh : held = 0 <;> simp_all [rl_callback] <;>
      split <;> simp
  | _ =>
    simp only [step]
    cases freed <;> by_cases hh : held = 0 <;> simp_all [rl_callback] <;> grind

theorem rl_step_live (s s' : St) (e : Ev) (hl : s.srvLive = true) (he : e ≠ .serverGone) (h : step s e = .ok s') :
    s'.srvLive = true := by
  obtain ⟨rc, held, freed, srv, sl, sent, can, dt, an, cf⟩ := s
  simp only at hl
  subst hl
  cases e with
  | serverGone => exact absurd rfl he
  | drop k =>
    simp only [step, destroy, noResult] at h
    cases freed <;> cases sent <;> cases srv <;> cases can <;> by_cases hh : held = 0 <;> simp_all [rl_callback] <;> split at h <;>
      cases h <;> rfl
  | _ =>
    simp only [step] at h
    cases freed <;> by_cases hh : held = 0 <;> simp_all <;> (try split at h) <;> (try cases h) <;> simp_all [rl_callback] <;> grind

theorem rl_run (evs : List Ev) : ∀ (s : St), RlInv s → s.srvLive = true → rlPolite evs → rlServerStays evs →
    (run s evs ≠ .ub) ∧ ∀ s', run s evs = .ok s' → RlInv s' := by
  induction evs with
  | nil =>
    intro s hi _ _ _
    refine ⟨by simp [run], ?_⟩
    intro s' h
    simp only [run, Res.ok.injEq] at h
    exact h ▸ hi
  | cons e r ih =>
    intro s hi hl hp hs
    have hp' : rlPolite r := fun e he => hp e (List.mem_cons_of_mem _ he)
    have hs' : rlServerStays r := fun he => hs (List.mem_cons_of_mem _ he)
    have hne : e ≠ .serverGone := fun h => hs (h ▸ List.mem_cons_self)
    have hub := rl_step_ub s e hi hl
    simp only [run]
    cases hst : step s e with
    | ok s1 =>
      simp only [Res.bind_ok]
      exact ih s1 (rl_step_inv s s1 e hi (hp e List.mem_cons_self) hst) (rl_step_live s s1 e hl hne hst) hp' hs'
    | err => simp
    | ub => exact absurd hst hub.1
    | abort => exact absurd hst hub.2.1
    | fuel => exact absurd hst hub.2.2

theorem rl_new (can : Bool) : RlInv (rlNew can) := by
  constructor <;> simp [rlNew]

/-- C140 (partial: the program keeps no pointer given to it by the error sent from the destructor, and the server outlives
the request). Whatever a program does with its pointers – copies, drops, answers whose callbacks keep any number of further
pointers – nothing touches a request that is gone. -/
theorem C140_safe_partial (can : Bool) (evs : List Ev) (hp : rlPolite evs) (hs : rlServerStays evs) :
    run (rlNew can) evs ≠ .ub :=
  (rl_run evs _ (rl_new can) rfl hp hs).1

example : rlPolite [.exec, .copy, .answer 2, .drop 0, .drop 0] ∧ rlServerStays [.exec, .copy, .answer 2, .drop 0, .drop 0] := by
  constructor
  · intro e he k hk
    subst hk
    simp at he
    exact he
  · simp [rlServerStays]

/-- C140 (same restrictions): the request is gone exactly when nobody holds it; then its destructor has run once and its
callbacks have been released once; before that neither has happened. So nothing leaks. -/
theorem C140_gone_partial (can : Bool) (evs : List Ev) (hp : rlPolite evs) (hs : rlServerStays evs) (s : St)
    (h : run (rlNew can) evs = .ok s) :
    (s.freed = true ↔ s.held = 0) ∧ s.dtors = (if s.held = 0 then 1 else 0) ∧ s.cbsFreed = (if s.held = 0 then 1 else 0) := by
  have hi := (rl_run evs _ (rl_new can) rfl hp hs).2 s h
  refine ⟨hi.gone, ?_, ?_⟩
  · rw [hi.dt]
    by_cases hh : s.held = 0
    · simp [hh, hi.gone.2 hh]
    · have : s.freed = false := by
        cases hf : s.freed
        · rfl
        · exact absurd (hi.gone.1 hf) hh
      simp [hh, this]
  · rw [hi.cb, hi.dt]
    by_cases hh : s.held = 0
    · simp [hh, hi.gone.2 hh]
    · have : s.freed = false := by
        cases hf : s.freed
        · rfl
        · exact absurd (hi.gone.1 hf) hh
      simp [hh, this]

example : ∃ s, run (rlNew true) [.exec, .copy, .answer 2, .drop 0, .drop 0] = .ok s ∧ s.held = 2 ∧ s.dtors = 0 := ⟨_, rfl, rfl, rfl⟩
example : ∃ s, run (rlNew true) [.exec, .copy, .drop 0, .drop 0] = .ok s ∧ s.held = 0 ∧ s.dtors = 1 ∧ s.answers = 1 := ⟨_, rfl, rfl, rfl, rfl⟩

/-- The events mention the execution by a server. -/
theorem rl_srv (evs : List Ev) : ∀ (s s' : St), (s.srv = true ∨ Ev.exec ∈ evs) → run s evs = .ok s' → s'.srv = true ∧ s'.can = s.can := by
  induction evs with
  | nil =>
    intro s s' h hr
    simp only [run, Res.ok.injEq] at hr
    subst hr
    simpa using h
  | cons e r ih =>
    intro s s' h hr
    simp only [run] at hr
    cases hst : step s e with
    | ok s1 =>
      rw [hst] at hr
      simp only [Res.bind_ok] at hr
      have key : (s.srv = true → s1.srv = true) ∧ (e = .exec → s1.srv = true) ∧ s1.can = s.can := by
        clear ih hr h
        obtain ⟨rc, held, freed, srv, sl, sent, can, dt, an, cf⟩ := s
        cases e with
        | drop k =>
          simp only [step, destroy, noResult] at hst
          cases freed <;> cases sent <;> cases srv <;> cases can <;> cases sl <;> by_cases hh : held = 0 <;>
            simp_all [rl_callback] <;> split at hst <;> cases hst <;> simp
        | _ =>
          simp only [step] at hst
          cases freed <;> by_cases hh : held = 0 <;> simp_all <;> (try split at hst) <;> (try cases hst) <;> simp_all [rl_callback] <;>
            grind
      have := ih s1 s' (by
        rcases h with h | h
        · exact .inl (key.1 h)
        · rcases List.mem_cons.1 h with h | h
          · exact .inl (key.2.1 h.symm)
          · exact .inr h) hr
      exact ⟨this.1, this.2.trans key.2.2⟩
    | err => rw [hst] at hr; simp at hr
    | ub => rw [hst] at hr; simp at hr
    | abort => rw [hst] at hr; simp at hr
    | fuel => rw [hst] at hr; simp at hr

/-- C140 (same restrictions): a request which a server has executed, which can be answered and which nobody holds any more
has been answered exactly once – by the program or by the error sent from the destructor. -/
theorem C140_answered_partial (evs : List Ev) (hp : rlPolite evs) (hs : rlServerStays evs) (s : St) (he : Ev.exec ∈ evs)
    (h : run (rlNew true) evs = .ok s) (hh : s.held = 0) : s.answers = 1 := by
  have hi := (rl_run evs _ (rl_new true) rfl hp hs).2 s h
  obtain ⟨h1, h2⟩ := rl_srv evs _ s (.inr he) h
  rw [hi.ans, hi.fin (hi.gone.2 hh) h1 (by rw [h2]; rfl)]
  rfl

example : ∃ s, run (rlNew true) [.exec, .drop 0] = .ok s ∧ s.held = 0 ∧ s.answers = 1 := ⟨_, rfl, rfl, rfl⟩

/-- What holds of a request that has been answered, whatever the program and its callbacks do. -/
theorem rl_step_sent (s : St) (e : Ev) (h1 : s.rc = s.held) (h2 : s.freed = true ↔ s.held = 0) (h3 : s.sent = true) :
    step s e = .err ∨ ∃ s', step s e = .ok s' ∧ s'.rc = s'.held ∧ (s'.freed = true ↔ s'.held = 0) ∧ s'.sent = true ∧
      s'.answers = s.answers := by
  obtain ⟨rc, held, freed, srv, sl, sent, can, dt, an, cf⟩ := s
  simp only at *
  subst h1 h3
  cases e with
  | drop k =>
    simp only [step, destroy]
    cases freed <;> by_cases hh : rc = 0 <;> simp_all
    by_cases h1 : rc - 1 = 0 <;> simp_all
  | _ =>
    simp only [step]
    cases freed <;> by_cases hh : rc = 0 <;> simp_all

/-- C140, after the answer without restrictions: once a request has been answered its pointers can be copied, kept and dropped
in any order, by any callbacks, before or after the end of the server – nothing that is gone is touched and there is no second
answer. -/
theorem C140_after_answer (can : Bool) (evs evs' : List Ev) (hp : rlPolite evs) (hs : rlServerStays evs) (s : St)
    (h : run (rlNew can) evs = .ok s) (hsent : s.sent = true) :
    run s evs' ≠ .ub ∧ ∀ s', run s evs' = .ok s' → s'.answers = 1 ∧ (s'.freed = true ↔ s'.held = 0) := by
  have hi := (rl_run evs _ (rl_new can) rfl hp hs).2 s h
  have ha : s.answers = 1 := by rw [hi.ans, hsent]; rfl
  have h1 := hi.cnt
  have h2 := hi.gone
  clear h hi
  induction evs' generalizing s with
  | nil =>
    refine ⟨by simp [run], ?_⟩
    intro s' h
    simp only [run, Res.ok.injEq] at h
    subst h
    exact ⟨ha, h2⟩
  | cons e r ih =>
    simp only [run]
    rcases rl_step_sent s e h1 h2 hsent with hst | ⟨s1, hst, k1, k2, k3, k4⟩
    · rw [hst]; simp
    · rw [hst]
      simp only [Res.bind_ok]
      exact ih s1 k3 (k4.trans ha) k1 k2

example : ∃ s s', run (rlNew true) [.exec, .answer 1] = .ok s ∧ s.sent = true ∧ run s [.serverGone, .drop 3, .drop 3] = .ok s' ∧
    s'.freed = true := ⟨_, _, rfl, rfl, rfl, rfl⟩

/-- C140 is violated when the callback keeps the request it is given: the error sent from the destructor (rpc.cpp:714-726)
hands out a pointer to the request being destroyed. The memory goes while that pointer is held, and letting go of the pointer
touches it again (and the counter, reaching zero once more, runs the destructor a second time). -/
theorem C140_violation_kept :
    (∃ s, run (rlNew true) [.exec, .drop 1] = .ok s ∧ s.freed = true ∧ s.held = 1) ∧
    run (rlNew true) [.exec, .drop 1, .drop 0] = .ub := ⟨⟨_, rfl, rfl, rfl⟩, rfl⟩

/-- In general: after any program has let go of the last pointer to a request executed by a living server and not answered,
with a callback that keeps at least one pointer, every further use of it (copy, answer, execution or drop) is undefined. -/
theorem C140_violation_kept_always (can : Bool) (evs : List Ev) (hp : rlPolite evs) (hs : rlServerStays evs) (s : St)
    (h : run (rlNew can) evs = .ok s) (h1 : s.held = 1) (h2 : s.sent = false) (h3 : s.srv = true) (h4 : s.can = true)
    (k : Nat) (e : Ev) (he : e ≠ .serverGone) (hl : s.srvLive = true) :
    run (rlNew can) (evs ++ [.drop (k + 1), e]) = .ub := by
  have hi := (rl_run evs _ (rl_new can) rfl hp hs).2 s h
  have happ : ∀ (a b : List Ev) (t : St), run t (a ++ b) = (run t a >>= fun u => run u b) := by
    intro a
    induction a with
    | nil => intro b t; simp [run]
    | cons e r ih =>
      intro b t
      simp only [List.cons_append, run]
      cases step t e <;> simp [ih]
  rw [happ, h]
  obtain ⟨c1, c2, c3, c4, c5, c6, c7⟩ := hi
  obtain ⟨rc, held, freed, srv, sl, sent, can', dt, an, cf⟩ := s
  simp only at *
  subst h1 h2 h3 h4 hl c1
  cases freed
  · cases e with
    | serverGone => exact absurd rfl he
    | _ => simp [run, step, destroy, noResult, rl_callback]
  · simp at c2

example : ∃ s, run (rlNew true) [.exec, .copy, .drop 0] = .ok s ∧ s.held = 1 ∧ s.sent = false ∧ s.srv = true ∧ s.can = true ∧
    s.srvLive = true := ⟨_, rfl, rfl, rfl, rfl, rfl, rfl⟩

/-- C140 is violated when the server goes first: a request put aside by a method (an asynchronous answer) keeps the bare
pointer `srvsvc` (rpc.h:278); letting go of it after the server has been destroyed calls `formatError` of an object that no
longer exists (rpc.cpp:718). -/
theorem C140_violation_server : run (rlNew true) [.exec, .serverGone, .drop 0] = .ub := rfl

/-- C140 is violated for a request nobody has executed: it is dropped without any answer (rpc.cpp:716 – no server, no
error), though its callback waits for one. -/
theorem C140_violation_unexecuted :
    ∃ s, run (rlNew true) [.drop 0] = .ok s ∧ s.held = 0 ∧ s.freed = true ∧ s.answers = 0 := ⟨_, rfl, rfl, rfl, rfl⟩

end Imt.Props
