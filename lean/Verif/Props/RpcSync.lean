import Verif.Model.RpcSync
/-! # Properties of threads using one RPC client: C135, C136 -/
namespace Imt.Props
open Imt Imt.RpcSync

/-! ## C135 -/

/-- The rest of a thread that holds the lock `d` times uses shared members only while it holds it, releases it only while
it holds it, and does not end holding it. -/
def Guarded : Nat → List Act → Prop
  | d, [] => d = 0
  | d, .lock :: r => Guarded (d + 1) r
  | 0, .unlock :: _ => False
  | d + 1, .unlock :: r => Guarded d r
  | d, .rd _ :: r => 0 < d ∧ Guarded d r
  | d, .wr _ :: r => 0 < d ∧ Guarded d r

theorem run_guarded {l : List Act} (h : Run l) : ∀ (d : Nat) (k : List Act), Guarded d k → Guarded d (l ++ k) := by
  have waits : ∀ (n d : Nat) (k : List Act), Guarded (d + 1) k →
      Guarded (d + 1) ((List.replicate n [Act.unlock, Act.lock]).flatten ++ k) := by
    intro n
    induction n with
    | zero => intro d k hk; exact hk
    | succ n ih => intro d k hk; exact ih d k hk
  induction h with
  | nil => intro d k hk; exact hk
  | app a b _ _ iha ihb => intro d k hk; rw [List.append_assoc]; exact iha d _ (ihb d k hk)
  | prepare3 | prepare2 | setContext | getContext | updateContext | cancelMissing | release | collect =>
    intro d k hk
    simpa [prepare3, prepare2, setContext, updateContext, cancelMissing, genId, Guarded] using hk
  | cancelFound cb _ ih =>
    intro d k hk
    have := ih d k hk
    simpa [cancelFound, Guarded] using this
  | filter cb _ ih =>
    intro d k hk
    have := ih (d + 1) ([.rd .callMap, .wr .callMap, .unlock] ++ k) (by simpa [Guarded] using hk)
    simpa [Guarded] using this
  | notify send _ ih =>
    intro d k hk
    have := ih (d + 1) ([.unlock] ++ k) (by simpa [Guarded] using hk)
    simpa [Guarded] using this
  | async refused send _ _ ihr ih =>
    intro d k hk
    have := ihr (d + 1) _ (ih (d + 1) ([.unlock] ++ k) (by simpa [Guarded] using hk))
    simpa [Guarded] using this
  | sync refused send n _ _ ihr ih =>
    intro d k hk
    have := ihr (d + 1) _ (ih (d + 1) _ (waits n d ([.unlock] ++ k) (by simpa [Guarded] using hk)))
    simpa [Guarded] using this

/-- How many times a thread holds the lock. -/
def held (o : Option (Nat × Nat)) (i : Nat) : Nat :=
  match o with
  | some (j, d) => if j = i then d else 0
  | none => 0

theorem held_self (i d : Nat) : held (some (i, d)) i = d := by simp [held]
theorem held_other {i j : Nat} (d : Nat) (h : j ≠ i) : held (some (i, d)) j = 0 := by
  simp only [held]; rw [if_neg (Ne.symm h)]
theorem set_self {α : Type} (f : Nat → α) (i : Nat) (a : α) : RpcSync.set f i a i = a := by simp [RpcSync.set]
theorem set_other {α : Type} (f : Nat → α) {i j : Nat} (a : α) (h : j ≠ i) : RpcSync.set f i a j = f j := by
  simp [RpcSync.set, h]

theorem guarded_step {s t : St} (h : ∀ i, Guarded (held s.owner i) (s.rest i)) (hs : Step s t) :
    ∀ i, Guarded (held t.owner i) (t.rest i) := by
  cases hs with
  | lock0 i r hr ho =>
    intro j
    have hj := h j
    by_cases e : j = i
    · subst e
      rw [hr, ho] at hj
      simpa [held_self, set_self, held, Guarded] using hj
    · rw [ho] at hj
      show Guarded (held (some (i, 1)) j) (RpcSync.set s.rest i r j)
      rw [held_other _ e, set_other _ _ e]
      exact hj
  | lockN i d r hr ho =>
    intro j
    have hj := h j
    by_cases e : j = i
    · subst e
      rw [hr, ho, held_self] at hj
      simpa [held_self, set_self, Guarded] using hj
    · rw [ho, held_other _ e] at hj
      simpa [held_other _ e, set_other _ _ e] using hj
  | unlock1 i r hr ho =>
    intro j
    have hj := h j
    by_cases e : j = i
    · subst e
      rw [hr, ho, held_self] at hj
      simpa [set_self, Guarded, held] using hj
    · rw [ho, held_other _ e] at hj
      simpa [set_other _ _ e, held] using hj
  | unlockN i d r hr ho =>
    intro j
    have hj := h j
    by_cases e : j = i
    · subst e
      rw [hr, ho, held_self] at hj
      simpa [held_self, set_self, Guarded] using hj
    · rw [ho, held_other _ e] at hj
      simpa [held_other _ e, set_other _ _ e] using hj
  | rd i x r hr =>
    intro j
    have hj := h j
    by_cases e : j = i
    · subst e
      rw [hr] at hj
      simp only [set_self]
      revert hj
      generalize held s.owner j = d
      cases d <;> simp [Guarded]
    · simpa [set_other _ _ e] using hj
  | wr i x r hr =>
    intro j
    have hj := h j
    by_cases e : j = i
    · subst e
      rw [hr] at hj
      simp only [set_self]
      revert hj
      generalize held s.owner j = d
      cases d <;> simp [Guarded]
    · simpa [set_other _ _ e] using hj

theorem guarded_reach {s t : St} (h : ∀ i, Guarded (held s.owner i) (s.rest i)) (hr : Reach s t) :
    ∀ i, Guarded (held t.owner i) (t.rest i) := by
  induction hr with
  | refl => exact h
  | step b c _ hs ih => exact guarded_step ih hs

theorem guarded_use {d : Nat} {x : Var} {w : Bool} {r : List Act} (h : Guarded d ((if w then .wr x else .rd x) :: r)) : 0 < d := by
  cases w <;> cases d <;> simp [Guarded] at h ⊢

/-- C135 (partial): any number of threads, each using the client by any sequence of calls, cancellations, responses and
uses of the context, nested in `sendRequest` and in the functions called with results: in no interleaving do two threads
use a shared member at once with one of them writing, and no thread releases a lock it does not hold. Missing:
`parseResponse` (`C135_violation_parseResponse`). -/
theorem C135_no_race_partial (prog : Nat → List Act) (h : ∀ i, Run (prog i)) (s : St) (hr : Reach ⟨none, prog⟩ s) :
    ¬ Race s ∧ ¬ BadUnlock s := by
  have h0 : ∀ i, Guarded (held (none : Option (Nat × Nat)) i) (prog i) := by
    intro i
    have := run_guarded (h i) 0 [] rfl
    simpa [held] using this
  have hg := guarded_reach h0 hr
  constructor
  · rintro ⟨i, j, x, w, hne, ⟨ri, hi⟩, rj, hj⟩
    have gi := hg i
    have gj := hg j
    rw [hi] at gi
    rw [hj] at gj
    have pi := guarded_use gi
    have pj := guarded_use gj
    revert pi pj
    unfold held
    cases s.owner with
    | none => intro pi; simp at pi
    | some o =>
      intro pi pj
      by_cases e : o.1 = i
      · have : o.1 ≠ j := fun e' => hne (e.symm.trans e')
        simp [this] at pj
      · simp [e] at pi
  · rintro ⟨i, r, hi, ho⟩
    have gi := hg i
    rw [hi] at gi
    have : held s.owner i = 0 := by
      unfold held
      cases e : s.owner with
      | none => rfl
      | some o =>
        have : o.1 ≠ i := by
          intro e'
          exact ho o.2 (by rw [e, ← e'])
        simp [this]
    rw [this] at gi
    exact gi

example : Run ([.lock, .wr .callMap] ++ [] ++ (cancelFound ++ (prepare2 ++ prepare3)) ++
    (List.replicate 2 [Act.unlock, Act.lock]).flatten ++ [.unlock]) :=
  .sync [] _ 2 .nil (.cancelFound _ (.app _ _ .prepare2 .prepare3))

/-- C135 does not hold with `parseResponse`: it searches and changes the map of pending calls without the lock
(rpc.cpp:634-639), at once with another thread that cancels a call. -/
theorem C135_violation_parseResponse : ∃ s, Reach ⟨none, fun i => if i = 0 then parseResponse else
    if i = 1 then cancelFound else []⟩ s ∧ Race s := by
  refine ⟨_, .step _ _ _ (.step _ _ _ (.step _ _ _ (.step _ _ _ (.step _ _ _ (.step _ _ _ (.step _ _ _ (.step _ _ _
    (.step _ _ _ (.refl _) (.lock0 _ 0 _ rfl rfl)) (.rd _ 0 _ _ rfl)) (.lockN _ 0 _ _ rfl rfl)) (.wr _ 0 _ _ rfl))
    (.unlockN _ 0 0 _ rfl rfl)) (.unlock1 _ 0 _ rfl rfl)) (.rd _ 0 .callMap _ rfl)) (.lock0 _ 1 _ rfl rfl))
    (.rd _ 1 .callMap _ rfl), 0, 1, .callMap, true, by decide, ⟨_, rfl⟩, ⟨_, rfl⟩⟩

/-! ## C136 -/

/-- What holds in every state of a synchronous call. -/
structure SyncInv (val : Nat → Nat) (s : Sys) : Prop where
  lockCaller : s.lock = some .caller ↔ (s.caller = .sending ∨ s.caller = .testing ∨ s.caller = .reading)
  lockResp : ∀ i, s.lock = some (.resp i) ↔ (s.resp i = .search ∨ s.resp i = .flag)
  one : s.took.length ≤ 1
  entry : s.entry = true → s.took = [] ∧ s.caller ≠ .start ∧ s.alive = true
  unreg : s.caller = .start → s.took = []
  touch : ∀ i, Touches s i → s.took = [i] ∧ s.alive = true ∧ s.received = false
  done : s.received = true → ∃ i, s.took = [i] ∧ s.res = some (val i) ∧ s.resp i = .finished
  took : ∀ i, s.took = [i] → Touches s i ∨ s.received = true
  wrote : ∀ i, s.resp i = .relock ∨ s.resp i = .flag → s.res = some (val i)
  asleep : s.caller = .waiting false → s.received = false
  reading : s.caller = .reading → s.received = true
  ret : ∀ r, s.caller = .returned r → s.received = true ∧ ∃ i, s.took = [i] ∧ r = some (val i)
  alive : s.alive = true ↔ (s.caller ≠ .start ∧ ∀ r, s.caller ≠ .returned r)

theorem syncInv_init (val : Nat → Nat) : SyncInv val {} := by
  constructor <;> simp [Touches]

theorem syncInv_step {val : Nat → Nat} {s t : Sys} (h : SyncInv val s) (hs : CStep val s t) : SyncInv val t := by
  obtain ⟨h1, h2, h3, h4, h5, h6, h7, h8, h9, h10, h11, h12, h13⟩ := h
  simp only [Touches] at h6 h8
  cases hs <;> constructor <;> simp only [Touches] <;> grind [RpcSync.set]

theorem syncInv_reach {val : Nat → Nat} {s t : Sys} (h : SyncInv val s) (hr : CReach val s t) : SyncInv val t := by
  induction hr with
  | refl => exact h
  | step b c _ hs ih => exact syncInv_step ih hs

/-- C136: one caller and any number of threads that complete the call with results of their own, in any interleaving: no
thread uses the object of the caller when it is gone, and none writes the result while the caller reads it. -/
theorem C136_storage (val : Nat → Nat) (s : Sys) (hr : CReach val {} s) :
    (∀ i, Touches s i → s.alive = true) ∧ (s.caller = .reading → ∀ i, s.resp i ≠ .write) := by
  have h := syncInv_reach (syncInv_init val) hr
  refine ⟨fun i hi => (h.touch i hi).2.1, fun hc i hi => ?_⟩
  have h1 := h.reading hc
  have h2 := (h.touch i (.inl hi)).2.2
  rw [h1] at h2
  cases h2

/-- C136: the result of the call is the one of the thread that took it, and only one thread does. -/
theorem C136_result (val : Nat → Nat) (s : Sys) (hr : CReach val {} s) :
    s.took.length ≤ 1 ∧ ∀ r, s.caller = .returned r → ∃ i, s.took = [i] ∧ r = some (val i) := by
  have h := syncInv_reach (syncInv_init val) hr
  exact ⟨h.one, fun r hc => (h.ret r hc).2⟩

/-- C136: no notification is lost: a caller that waits and has not been notified has nothing to wake for. -/
theorem C136_notified (val : Nat → Nat) (s : Sys) (hr : CReach val {} s) (h : s.caller = .waiting false) :
    s.received = false := (syncInv_reach (syncInv_init val) hr).asleep h

theorem creach_trans {val : Nat → Nat} {a b c : Sys} (h1 : CReach val a b) (h2 : CReach val b c) : CReach val a c := by
  induction h2 with
  | refl => exact h1
  | step b c _ hs ih => exact .step _ _ _ ih hs

theorem creach_one {val : Nat → Nat} {a b c : Sys} (hs : CStep val a b) (h : CReach val b c) : CReach val a c :=
  creach_trans (.step _ _ _ (.refl _) hs) h

theorem returns_received {val : Nat → Nat} {s : Sys} (h : SyncInv val s) (hr : s.received = true) :
    ∃ t r, CReach val s t ∧ t.caller = .returned r := by
  have fromReading : ∀ s : Sys, s.caller = .reading → ∃ t r, CReach val s t ∧ t.caller = .returned r :=
    fun s hc => ⟨_, s.res, creach_one (.read s hc) (.refl _), rfl⟩
  have fromTesting : ∀ s : Sys, s.caller = .testing → s.received = true → ∃ t r, CReach val s t ∧ t.caller = .returned r := by
    intro s hc hr
    obtain ⟨t, r, ht, hret⟩ := fromReading { s with caller := .reading } rfl
    exact ⟨t, r, creach_one (.ready s hc hr) ht, hret⟩
  have fromWaiting : ∀ (s : Sys) n, s.caller = .waiting n → s.received = true → s.lock = none →
      ∃ t r, CReach val s t ∧ t.caller = .returned r := by
    intro s n hc hr hl
    obtain ⟨t, r, ht, hret⟩ := fromTesting { s with lock := some .caller, caller := .testing } rfl hr
    exact ⟨t, r, creach_one (.wake s n hc hl) ht, hret⟩
  cases hc : s.caller with
  | returned r => exact ⟨s, r, .refl s, hc⟩
  | reading => exact fromReading s hc
  | testing => exact fromTesting s hc hr
  | sending =>
    obtain ⟨t, r, ht, hret⟩ := fromTesting { s with caller := .testing } rfl hr
    exact ⟨t, r, creach_one (.send s hc) ht, hret⟩
  | start =>
    obtain ⟨i, hi, -, -⟩ := h.done hr
    rw [h.unreg hc] at hi
    cases hi
  | waiting n =>
    cases hl : s.lock with
    | none => exact fromWaiting s n hc hr hl
    | some w =>
      cases w with
      | caller =>
        have := h.lockCaller.mp hl
        rw [hc] at this
        simp at this
      | resp j =>
        rcases (h.lockResp j).mp hl with hj | hj
        · have he : s.entry = false := by
            cases e : s.entry with
            | false => rfl
            | true =>
              obtain ⟨i, hi, -, -⟩ := h.done hr
              rw [(h.entry e).1] at hi
              cases hi
          obtain ⟨t, r, ht, hret⟩ := fromWaiting { s with lock := none, resp := RpcSync.set s.resp j .finished } n hc hr rfl
          exact ⟨t, r, creach_one (.miss s j hj he) ht, hret⟩
        · have := (h.touch j (.inr (.inr hj))).2.2
          rw [hr] at this
          cases this

theorem returns_flag {val : Nat → Nat} {s : Sys} (h : SyncInv val s) {i : Nat} (hi : s.resp i = .flag) :
    ∃ t r, CReach val s t ∧ t.caller = .returned r := by
  have hs := CStep.flag (val := val) s i hi
  obtain ⟨t, r, ht, hret⟩ := returns_received (syncInv_step h hs) rfl
  exact ⟨t, r, creach_one hs ht, hret⟩

theorem returns_free {val : Nat → Nat} {s : Sys} (h : SyncInv val s) (hl : s.lock = none) {i : Nat} (hi : Touches s i) :
    ∃ t r, CReach val s t ∧ t.caller = .returned r := by
  have relock : ∀ s : Sys, SyncInv val s → s.lock = none → s.resp i = .relock →
      ∃ t r, CReach val s t ∧ t.caller = .returned r := by
    intro s h hl hi
    have hs := CStep.relock (val := val) s i hi hl
    obtain ⟨t, r, ht, hret⟩ := returns_flag (i := i) (syncInv_step h hs) (set_self _ _ _)
    exact ⟨t, r, creach_one hs ht, hret⟩
  rcases hi with hi | hi | hi
  · have hs := CStep.write (val := val) s i hi
    obtain ⟨t, r, ht, hret⟩ := relock _ (syncInv_step h hs) hl (set_self _ _ _)
    exact ⟨t, r, creach_one hs ht, hret⟩
  · exact relock s h hl hi
  · exact returns_flag h hi

/-- C136: once a thread has taken the call, the caller can always get to its end: no state is a deadlock. -/
theorem C136_no_deadlock (val : Nat → Nat) (s : Sys) (hr : CReach val {} s) (h : s.took ≠ []) :
    ∃ t r, CReach val s t ∧ t.caller = .returned r := by
  have inv := syncInv_reach (syncInv_init val) hr
  obtain ⟨i, hi⟩ : ∃ i, s.took = [i] := by
    have := inv.one
    match e : s.took, h, this with
    | [i], _, _ => exact ⟨i, rfl⟩
  rcases inv.took i hi with ht | hrec
  · have hnr := (inv.touch i ht).2.2
    have he : s.entry = false := by
      cases e : s.entry with
      | false => rfl
      | true => rw [(inv.entry e).1] at hi; cases hi
    have sleep : ∀ s : Sys, SyncInv val s → s.caller = .testing → s.received = false → Touches s i →
        ∃ t r, CReach val s t ∧ t.caller = .returned r := by
      intro s inv hc hnr ht
      have hs := CStep.sleep (val := val) s hc hnr
      obtain ⟨t, r, hreach, hret⟩ := returns_free (i := i) (syncInv_step inv hs) rfl ht
      exact ⟨t, r, creach_one hs hreach, hret⟩
    cases hl : s.lock with
    | none => exact returns_free inv hl ht
    | some w =>
      cases w with
      | caller =>
        rcases inv.lockCaller.mp hl with hc | hc | hc
        · have hs := CStep.send (val := val) s hc
          obtain ⟨t, r, hreach, hret⟩ := sleep _ (syncInv_step inv hs) rfl hnr ht
          exact ⟨t, r, creach_one hs hreach, hret⟩
        · exact sleep s inv hc hnr ht
        · rw [inv.reading hc] at hnr; cases hnr
      | resp j =>
        rcases (inv.lockResp j).mp hl with hj | hj
        · have hs := CStep.miss (val := val) s j hj he
          have hne : i ≠ j := by
            intro e
            subst e
            unfold Touches at ht
            rw [hj] at ht
            simp at ht
          obtain ⟨t, r, hreach, hret⟩ := returns_free (i := i) (syncInv_step inv hs) rfl (by
            unfold Touches
            simp only [set_other _ _ hne]
            exact ht)
          exact ⟨t, r, creach_one hs hreach, hret⟩
        · exact returns_flag inv hj
  · exact returns_received inv hrec

/-- A run in which the call is taken by the thread 5 while the caller waits. -/
example : ∃ s, CReach (fun i => i * 10) {} s ∧ s.took = [5] ∧ s.caller = .waiting false :=
  ⟨_, .step _ _ _ (.step _ _ _ (.step _ _ _ (.step _ _ _ (.step _ _ _ (.refl _) (.register _ rfl rfl)) (.send _ rfl))
    (.sleep _ rfl rfl)) (.enter _ 5 rfl rfl)) (.take _ 5 rfl rfl), rfl, rfl⟩

end Imt.Props
