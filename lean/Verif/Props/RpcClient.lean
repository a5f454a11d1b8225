import Verif.Model.Rpc
import Verif.Props.Rpc
/-!
# Properties of the RPC client and of multicall (C60, C87, C88, C89)
-/
namespace Imt.Props
open Imt Imt.Rpc

/-! ### Client -/

/-- Why a call may have been completed: by an operation with the id it was issued with. -/
def Just (ops : List COp) (issued : List (Nat × Nat)) (t : Nat) : Outcome → Prop
  | .answered id r => (t, id) ∈ issued ∧ COp.response id r ∈ ops
  | .cancelled id r => (t, id) ∈ issued ∧
      (COp.cancel id r ∈ ops ∨ COp.cancelAll r ∈ ops ∨ ∃ keep, id ∉ keep ∧ COp.filter keep r ∈ ops)
  | .dropped => True

theorem Just.mono {ops ops' : List COp} {i i' : List (Nat × Nat)} {t : Nat} {o : Outcome} (h : Just ops i t o)
    (ho : ∀ x ∈ ops, x ∈ ops') (hi : ∀ x ∈ i, x ∈ i') : Just ops' i' t o := by
  cases o with
  | answered id r => exact ⟨hi _ h.1, ho _ h.2⟩
  | cancelled id r =>
    refine ⟨hi _ h.1, ?_⟩
    rcases h.2 with h | h | ⟨k, hk, h⟩
    · exact .inl (ho _ h)
    · exact .inr (.inl (ho _ h))
    · exact .inr (.inr ⟨k, hk, ho _ h⟩)
  | dropped => trivial

/-- Invariant of the client after operations `ops`. -/
structure CI (c : Client) (ops : List COp) : Prop where
  ver : c.ver.isNone = false
  dead : c.dead = []
  ids : (c.pend.map (·.1)).Nodup
  toks : (c.pend.map (·.2) ++ c.done.map (·.1)).Nodup
  lt : ∀ t ∈ c.pend.map (·.2) ++ c.done.map (·.1), t < c.next
  all : ∀ t, t < c.next → t ∈ c.pend.map (·.2) ++ c.done.map (·.1)
  pissued : ∀ e ∈ c.pend, (e.2, e.1) ∈ c.issued
  tokens : c.issued.map (·.1) = List.range c.next
  just : ∀ e ∈ c.done, Just ops c.issued e.1 e.2

theorem CI.mono {c : Client} {ops ops' : List COp} (h : CI c ops) (ho : ∀ x ∈ ops, x ∈ ops') : CI c ops' :=
  ⟨h.ver, h.dead, h.ids, h.toks, h.lt, h.all, h.pissued, h.tokens, fun e he => (h.just e he).mono ho (fun _ => id)⟩

theorem findId_none {l : List (Nat × Nat)} {id : Nat} (h : findId l id = none) : ∀ e ∈ l, e.1 ≠ id := by
  unfold findId at h
  intro e he hc
  rw [Option.map_eq_none_iff, List.find?_eq_none] at h
  exact h e he (by simp [hc])

theorem findId_some {l : List (Nat × Nat)} {id t : Nat} (h : findId l id = some t) : (id, t) ∈ l := by
  unfold findId at h
  rw [Option.map_eq_some_iff] at h
  obtain ⟨e, he, rfl⟩ := h
  have h1 := List.mem_of_find?_eq_some he
  have h2 := List.find?_some he
  have : e.1 = id := by simpa using h2
  rw [← this]
  exact h1

/-- Removing the entry of one id from a list with unique ids removes that entry only. -/
theorem remove_id {l : List (Nat × Nat)} (hn : (l.map (·.1)).Nodup) {id t : Nat} (h : (id, t) ∈ l) :
    l.Perm ((id, t) :: l.filter (fun e => e.1 != id)) := by
  induction l with
  | nil => cases h
  | cons e l ih =>
    rw [List.map_cons, List.nodup_cons] at hn
    by_cases he : e.1 = id
    · have h1 : e = (id, t) := by
        rcases List.mem_cons.1 h with h | h
        · exact h.symm
        · exact absurd (List.mem_map.2 ⟨_, h, he.symm⟩) hn.1
      have h2 : (e :: l).filter (fun e => e.1 != id) = l := by
        rw [List.filter_cons_of_neg (by simp [he])]
        rw [List.filter_eq_self]
        intro x hx
        have : x.1 ≠ id := fun hc => hn.1 (List.mem_map.2 ⟨x, hx, hc.trans he.symm⟩)
        simpa using this
      rw [h2, h1]
    · have h1 : (id, t) ∈ l := by
        rcases List.mem_cons.1 h with h | h
        · exact absurd (by rw [← h]) he
        · exact h
      rw [List.filter_cons_of_pos (by simpa using he)]
      exact ((ih hn.2 h1).cons e).trans (List.Perm.swap _ _ _)

theorem complete_ci {c : Client} {ops : List COp} (h : CI c ops) (id : Nat) (o : Outcome)
    (hj : ∀ t, (t, id) ∈ c.issued → Just ops c.issued t o) :
    ∃ c', complete c id o = .ok c' ∧ CI c' ops ∧ c'.issued = c.issued ∧ c'.next = c.next ∧ c'.counter = c.counter ∧
      c'.pend = c.pend.filter (fun e => e.1 != id) ∧
      ((c'.done = c.done ∧ ∀ e ∈ c.pend, e.1 ≠ id) ∨ ∃ t, (id, t) ∈ c.pend ∧ c'.done = c.done ++ [(t, o)]) := by
  unfold complete
  cases hf : findId c.pend id with
  | none =>
    have hn := findId_none hf
    refine ⟨c, rfl, h, rfl, rfl, rfl, ?_, .inl ⟨rfl, hn⟩⟩
    symm
    rw [List.filter_eq_self]
    intro x hx
    simpa using hn x hx
  | some t =>
    have hm := findId_some hf
    have hp := remove_id h.ids hm
    dsimp only
    rw [if_neg (by rw [h.dead]; exact List.not_mem_nil)]
    refine ⟨_, rfl, ?_, rfl, rfl, rfl, rfl, .inr ⟨t, hm, rfl⟩⟩
    have hperm : (c.pend.map (·.2) ++ c.done.map (·.1)).Perm
        ((c.pend.filter (fun e => e.1 != id)).map (·.2) ++ (c.done ++ [(t, o)]).map (·.1)) := by
      have h1 := (hp.map (·.2)).append_right (c.done.map (·.1))
      refine h1.trans ?_
      rw [List.map_append, ← List.append_assoc]
      exact (List.perm_append_comm (l₁ := [t]))
    refine ⟨h.ver, h.dead, ?_, hperm.nodup_iff.1 h.toks, ?_, ?_, ?_, h.tokens, ?_⟩
    · exact h.ids.sublist (List.filter_sublist.map _)
    · intro x hx; exact h.lt x (hperm.mem_iff.2 hx)
    · intro x hx; exact hperm.mem_iff.1 (h.all x hx)
    · intro e he; exact h.pissued e (List.mem_filter.1 he).1
    · intro e he
      rcases List.mem_append.1 he with he | he
      · exact h.just e he
      · rw [List.mem_singleton.1 he]; exact hj t (h.pissued _ hm)

theorem completeAll_ci (r : Result) (ops : List COp) : ∀ (ids : List Nat) (c : Client), CI c ops →
    (∀ id ∈ ids, COp.cancelAll r ∈ ops ∨ ∃ keep, id ∉ keep ∧ COp.filter keep r ∈ ops) →
    ∃ c', completeAll c r ids = .ok c' ∧ CI c' ops ∧ c'.issued = c.issued ∧ c'.next = c.next ∧ c'.counter = c.counter ∧
      c'.pend = c.pend.filter (fun e => !ids.contains e.1) ∧
      (∀ e ∈ c'.done, e ∈ c.done ∨ ∃ id, e.2 = .cancelled id r) := by
  intro ids
  induction ids with
  | nil =>
    intro c h _
    exact ⟨c, rfl, h, rfl, rfl, rfl, by simp, fun e he => .inl he⟩
  | cons id ids ih =>
    intro c h hj
    obtain ⟨c1, e1, h1, i1, n1, k1, p1, d1⟩ := complete_ci h id (.cancelled id r) (fun t ht => ⟨ht, .inr (hj id List.mem_cons_self)⟩)
    obtain ⟨c2, e2, h2, i2, n2, k2, p2, d2⟩ := ih c1 h1 (fun x hx => hj x (List.mem_cons_of_mem _ hx))
    refine ⟨c2, ?_, h2, i2.trans i1, n2.trans n1, k2.trans k1, ?_, ?_⟩
    · rw [completeAll, e1]; exact e2
    · rw [p2, p1, List.filter_filter]
      congr 1
      funext e
      by_cases hx : e.1 = id <;> simp [hx, Bool.and_comm]
    · intro e he
      rcases d2 e he with he | he
      · rcases d1 with ⟨d1, _⟩ | ⟨t, _, d1⟩
        · rw [d1] at he; exact .inl he
        · rw [d1] at he
          rcases List.mem_append.1 he with he | he
          · exact .inl he
          · exact .inr ⟨id, by rw [List.mem_singleton.1 he]⟩
      · exact .inr he

/-- Operations other than a synchronous call whose sending throws. -/
def sends : COp → Bool
  | .callThrow => false
  | _ => true

theorem addPending_ci {c : Client} {ops : List COp} (h : CI c ops) (id : Nat) : CI (addPending c id) ops ∧
    (addPending c id).counter = c.counter ∧ (addPending c id).issued = c.issued ++ [(c.next, id)] ∧
    (addPending c id).next = c.next + 1 ∧
    (((∀ e ∈ c.pend, e.1 ≠ id) ∧ (addPending c id).pend = (id, c.next) :: c.pend ∧ (addPending c id).done = c.done) ∨
      ((∃ t, (id, t) ∈ c.pend) ∧ (addPending c id).pend = c.pend ∧ (addPending c id).done = c.done ++ [(c.next, .dropped)])) := by
  have hnew : c.next ∉ c.pend.map (·.2) ++ c.done.map (·.1) := fun hc => Nat.lt_irrefl _ (h.lt _ hc)
  have htok : (c.issued ++ [(c.next, id)]).map (·.1) = List.range (c.next + 1) := by
    rw [List.map_append, h.tokens, List.range_succ]; rfl
  unfold addPending
  dsimp only
  cases hf : findId c.pend id with
  | none =>
    have hn := findId_none hf
    dsimp only
    refine ⟨⟨h.ver, h.dead, ?_, ?_, ?_, ?_, ?_, htok, ?_⟩, rfl, rfl, rfl, .inl ⟨hn, rfl, rfl⟩⟩
    · rw [List.map_cons, List.nodup_cons]
      refine ⟨?_, h.ids⟩
      intro hc
      obtain ⟨e, he, hx⟩ := List.mem_map.1 hc
      exact hn e he hx
    · exact List.nodup_cons.2 ⟨hnew, h.toks⟩
    · intro t ht
      rcases List.mem_cons.1 ht with ht | ht
      · exact Nat.lt_of_le_of_lt (Nat.le_of_eq ht) (Nat.lt_succ_self c.next)
      · exact Nat.lt_succ_of_lt (h.lt t ht)
    · intro t ht
      rcases Nat.lt_succ_iff_lt_or_eq.1 ht with ht | ht
      · exact List.mem_cons_of_mem _ (h.all t ht)
      · exact ht ▸ List.mem_cons_self
    · intro e he
      rcases List.mem_cons.1 he with he | he
      · rw [he]; exact List.mem_append_right _ List.mem_cons_self
      · exact List.mem_append_left _ (h.pissued e he)
    · intro e he; exact (h.just e he).mono (fun _ h => h) (fun _ hx => List.mem_append_left _ hx)
  | some t0 =>
    have hm := findId_some hf
    have hperm : (c.pend.map (·.2) ++ (c.done ++ [(c.next, Outcome.dropped)]).map (·.1)).Perm
        (c.next :: (c.pend.map (·.2) ++ c.done.map (·.1))) := by
      rw [List.map_append, ← List.append_assoc]
      exact List.perm_append_comm
    dsimp only
    refine ⟨⟨h.ver, h.dead, h.ids, hperm.nodup_iff.2 (List.nodup_cons.2 ⟨hnew, h.toks⟩), ?_, ?_, ?_, htok, ?_⟩, rfl, rfl, rfl,
      .inr ⟨⟨t0, hm⟩, rfl, rfl⟩⟩
    · intro t ht
      rcases List.mem_cons.1 (hperm.mem_iff.1 ht) with ht | ht
      · exact Nat.lt_of_le_of_lt (Nat.le_of_eq ht) (Nat.lt_succ_self c.next)
      · exact Nat.lt_succ_of_lt (h.lt t ht)
    · intro t ht
      rcases Nat.lt_succ_iff_lt_or_eq.1 ht with ht | ht
      · exact hperm.mem_iff.2 (List.mem_cons_of_mem _ (h.all t ht))
      · exact hperm.mem_iff.2 (ht ▸ List.mem_cons_self)
    · intro e he; exact List.mem_append_left _ (h.pissued e he)
    · intro e he
      rcases List.mem_append.1 he with he | he
      · exact (h.just e he).mono (fun _ h => h) (fun _ hx => List.mem_append_left _ hx)
      · rw [List.mem_singleton.1 he]; trivial

theorem gen_ci {c : Client} {ops : List COp} (h : CI c ops) : CI (gen c).2 ops :=
  ⟨h.ver, h.dead, h.ids, h.toks, h.lt, h.all, h.pissued, h.tokens, h.just⟩

/-- Identifiers taken by operations. -/
def idsTaken : List COp → Nat
  | [] => 0
  | .call :: l => idsTaken l + 1
  | .callThrow :: l => idsTaken l + 1
  | .genId :: l => idsTaken l + 1
  | _ :: l => idsTaken l

/-- As long as identifiers do not wrap: issued identifiers are distinct and no call was dropped. -/
structure NoWrap (c : Client) (n : Nat) : Prop where
  counter : c.counter = n
  le : ∀ e ∈ c.issued, e.2 ≤ n
  nodup : (c.issued.map (·.2)).Nodup
  kept : ∀ e ∈ c.done, e.2 ≠ .dropped

theorem idsTaken_append (a b : List COp) : idsTaken (a ++ b) = idsTaken a + idsTaken b := by
  induction a with
  | nil => simp [idsTaken]
  | cons o l ih => cases o <;> simp [idsTaken, ih] <;> omega

theorem cstep_ci {c : Client} {ops : List COp} (h : CI c ops) (o : COp) (ho : sends o = true) :
    ∃ c', cstep c o = .ok c' ∧ CI c' (ops ++ [o]) ∧
      (NoWrap c (idsTaken ops) → idsTaken (ops ++ [o]) < 2 ^ 32 → NoWrap c' (idsTaken (ops ++ [o]))) ∧
      (∀ r, o = .cancelAll r → c'.pend = []) := by
  have hm : CI c (ops ++ [o]) := h.mono (fun x hx => List.mem_append_left _ hx)
  have hin : o ∈ ops ++ [o] := List.mem_append_right _ List.mem_cons_self
  have comp : ∀ id out, idsTaken (ops ++ [o]) = idsTaken ops → out ≠ .dropped → (∀ t, (t, id) ∈ c.issued → Just (ops ++ [o]) c.issued t out) →
      cstep c o = complete c id out → (∀ r, o ≠ .cancelAll r) → ∃ c', cstep c o = .ok c' ∧ CI c' (ops ++ [o]) ∧
        (NoWrap c (idsTaken ops) → idsTaken (ops ++ [o]) < 2 ^ 32 → NoWrap c' (idsTaken (ops ++ [o]))) ∧
        (∀ r, o = .cancelAll r → c'.pend = []) := by
    intro id out hids hdr hj he hne
    obtain ⟨c', e1, h1, i1, n1, k1, p1, d1⟩ := complete_ci hm id out hj
    refine ⟨c', he.trans e1, h1, ?_, fun r hr => absurd hr (hne r)⟩
    intro hw _
    rw [hids]
    refine ⟨k1.trans hw.counter, by rw [i1]; exact hw.le, by rw [i1]; exact hw.nodup, ?_⟩
    intro e he
    rcases d1 with ⟨d1, _⟩ | ⟨t, _, d1⟩
    · rw [d1] at he; exact hw.kept e he
    · rw [d1] at he
      rcases List.mem_append.1 he with he | he
      · exact hw.kept e he
      · rw [List.mem_singleton.1 he]; exact hdr
  have compAll : ∀ r ids, idsTaken (ops ++ [o]) = idsTaken ops →
      (∀ id ∈ ids, COp.cancelAll r ∈ ops ++ [o] ∨ ∃ keep, id ∉ keep ∧ COp.filter keep r ∈ ops ++ [o]) →
      cstep c o = completeAll c r ids → ((∀ r, o ≠ .cancelAll r) ∨ ids = c.pend.map (·.1)) →
      ∃ c', cstep c o = .ok c' ∧ CI c' (ops ++ [o]) ∧
        (NoWrap c (idsTaken ops) → idsTaken (ops ++ [o]) < 2 ^ 32 → NoWrap c' (idsTaken (ops ++ [o]))) ∧
        (∀ r, o = .cancelAll r → c'.pend = []) := by
    intro r ids hids hj he hne
    obtain ⟨c', e1, h1, i1, n1, k1, p1, d1⟩ := completeAll_ci r (ops ++ [o]) ids c hm hj
    refine ⟨c', he.trans e1, h1, ?_, ?_⟩
    · intro hw _
      rw [hids]
      refine ⟨k1.trans hw.counter, by rw [i1]; exact hw.le, by rw [i1]; exact hw.nodup, ?_⟩
      intro e he
      rcases d1 e he with he | ⟨id, he⟩
      · exact hw.kept e he
      · rw [he]; exact fun hc => by cases hc
    · intro r' hr
      rcases hne with hne | hne
      · exact absurd hr (hne r')
      · rw [p1, List.filter_eq_nil_iff, hne]
        intro e he
        simp only [Bool.not_eq_true, Bool.not_eq_false', List.contains_iff_mem]
        exact List.mem_map.2 ⟨e, he, rfl⟩
  cases o with
  | callThrow => cases ho
  | call =>
    have hg := gen_ci hm
    obtain ⟨a1, a2, a3, a4, a5⟩ := addPending_ci hg (gen c).1
    refine ⟨addPending (gen c).2 (gen c).1, ?_, a1, ?_, fun r hr => by cases hr⟩
    · simp only [cstep, h.ver, Bool.false_eq_true, if_false]
    · intro hw hlt
      rw [idsTaken_append] at hlt ⊢
      have hid : (gen c).1 = idsTaken ops + 1 := by
        show (c.counter + 1) % 2 ^ 32 = _
        rw [hw.counter]; exact Nat.mod_eq_of_lt hlt
      have hfree : ∀ e ∈ c.issued, e.2 ≠ (gen c).1 := by
        intro e he; have := hw.le e he; omega
      refine ⟨?_, ?_, ?_, ?_⟩
      · rw [a2]; exact hid
      · rw [a3]
        intro e he
        rcases List.mem_append.1 he with he | he
        · exact Nat.le_trans (hw.le e he) (Nat.le_add_right _ _)
        · rw [List.mem_singleton.1 he]; exact Nat.le_of_eq hid
      · rw [a3, List.map_append]
        refine List.nodup_append.2 ⟨hw.nodup, by simp, ?_⟩
        intro x hx y hy
        obtain ⟨e, he, rfl⟩ := List.mem_map.1 hx
        rw [List.mem_singleton.1 hy]
        exact hfree e he
      · rcases a5 with ⟨_, _, a6⟩ | ⟨⟨t, ht⟩, _, _⟩
        · rw [a6]; exact hw.kept
        · exact absurd rfl (hfree _ (h.pissued _ ht))
  | genId =>
    refine ⟨_, rfl, gen_ci hm, ?_, fun r hr => by cases hr⟩
    intro hw hlt
    rw [idsTaken_append] at hlt ⊢
    refine ⟨?_, fun e he => Nat.le_trans (hw.le e he) (Nat.le_add_right _ _), hw.nodup, hw.kept⟩
    show (c.counter + 1) % 2 ^ 32 = _
    rw [hw.counter]; exact Nat.mod_eq_of_lt hlt
  | response id r =>
    exact comp id (.answered id r) (by rw [idsTaken_append]; rfl) (fun hc => by cases hc) (fun t ht => ⟨ht, hin⟩) rfl (fun _ hc => by cases hc)
  | cancel id r =>
    exact comp id (.cancelled id r) (by rw [idsTaken_append]; rfl) (fun hc => by cases hc) (fun t ht => ⟨ht, .inl hin⟩) rfl (fun _ hc => by cases hc)
  | cancelAll r =>
    exact compAll r _ (by rw [idsTaken_append]; rfl) (fun id _ => .inl hin) rfl (.inr rfl)
  | filter keep r =>
    refine compAll r _ (by rw [idsTaken_append]; rfl) (fun id hid => .inr ⟨keep, ?_, hin⟩) rfl (.inl (fun _ hc => by cases hc))
    have := (List.mem_filter.1 hid).2
    simpa using this

theorem crun_ci : ∀ (l : List COp) (c : Client) (ops : List COp), CI c ops → (∀ o ∈ l, sends o = true) →
    ∃ c', crun c l = .ok c' ∧ CI c' (ops ++ l) ∧
      (NoWrap c (idsTaken ops) → idsTaken (ops ++ l) < 2 ^ 32 → NoWrap c' (idsTaken (ops ++ l))) := by
  intro l
  induction l with
  | nil => intro c ops h _; exact ⟨c, rfl, by rwa [List.append_nil], fun hw _ => by rwa [List.append_nil]⟩
  | cons o l ih =>
    intro c ops h hs
    obtain ⟨c1, e1, h1, w1, _⟩ := cstep_ci h o (hs o List.mem_cons_self)
    obtain ⟨c2, e2, h2, w2⟩ := ih c1 (ops ++ [o]) h1 (fun x hx => hs x (List.mem_cons_of_mem _ hx))
    have e : ops ++ o :: l = ops ++ [o] ++ l := by simp
    rw [e]
    refine ⟨c2, ?_, h2, ?_⟩
    · rw [crun, e1]; exact e2
    · intro hw hlt
      refine w2 (w1 hw ?_) hlt
      rw [idsTaken_append] at hlt
      omega

theorem ci_start (v2 : Bool) : CI { ver := some v2 } [] :=
  ⟨rfl, rfl, List.nodup_nil, List.nodup_nil, fun _ h => absurd h List.not_mem_nil, fun _ h => absurd h (Nat.not_lt_zero _),
    fun _ h => absurd h List.not_mem_nil, rfl, fun _ h => absurd h List.not_mem_nil⟩

/-- **C60** (partial: no synchronous call whose sending throws; fewer than 2^32 identifiers taken). For every sequence of calls, responses
(with arbitrary ids), cancellations, cancellations of all and filtering: nothing undefined happens; every call is completed at most
once and only by a response or cancellation with its own id, ids of calls are distinct, every issued call is either pending or completed.
Missing: the cases of the violations below. -/
theorem C60_once_partial (v2 : Bool) (ops : List COp) (hs : ∀ o ∈ ops, sends o = true) (hn : idsTaken ops < 2 ^ 32) :
    ∃ c, crun { ver := some v2 } ops = .ok c ∧ (c.done.map (·.1)).Nodup ∧ (c.issued.map (·.2)).Nodup ∧
      (∀ t o, (t, o) ∈ c.done → (∃ id r, o = .answered id r ∧ (t, id) ∈ c.issued ∧ COp.response id r ∈ ops) ∨
        (∃ id r, o = .cancelled id r ∧ (t, id) ∈ c.issued ∧
          (COp.cancel id r ∈ ops ∨ COp.cancelAll r ∈ ops ∨ ∃ keep, id ∉ keep ∧ COp.filter keep r ∈ ops))) ∧
      (∀ t, t < c.next → (t ∈ c.pend.map (·.2) ∨ t ∈ c.done.map (·.1)) ∧ ¬(t ∈ c.pend.map (·.2) ∧ t ∈ c.done.map (·.1))) := by
  obtain ⟨c, e, h, w⟩ := crun_ci ops _ [] (ci_start v2) hs
  rw [List.nil_append] at h w
  have hw := w ⟨rfl, fun _ h => absurd h List.not_mem_nil, List.nodup_nil, fun _ h => absurd h List.not_mem_nil⟩ hn
  have ht := List.nodup_append.1 h.toks
  refine ⟨c, e, ht.2.1, hw.nodup, ?_, ?_⟩
  · intro t o hto
    have hj := h.just _ hto
    have hk := hw.kept _ hto
    cases o with
    | answered id r => exact .inl ⟨id, r, rfl, hj.1, hj.2⟩
    | cancelled id r => exact .inr ⟨id, r, rfl, hj.1, hj.2⟩
    | dropped => exact absurd rfl hk
  · intro t hlt
    refine ⟨List.mem_append.1 (h.all t hlt), ?_⟩
    intro hc
    exact ht.2.2 t hc.1 t hc.2 rfl

/-- **C60.** In every reachable state of such a client: a response with an id of a pending call completes exactly that call with the
result received and removes it; a response with another id changes nothing. -/
theorem C60_response (v2 : Bool) (ops : List COp) (hs : ∀ o ∈ ops, sends o = true) (c : Client)
    (h : crun { ver := some v2 } ops = .ok c) (id : Nat) (r : Result) :
    (∀ t, (id, t) ∈ c.pend → cstep c (.response id r) =
      .ok { c with pend := c.pend.filter (fun e => e.1 != id), done := c.done ++ [(t, .answered id r)] }) ∧
    ((∀ t, (id, t) ∉ c.pend) → cstep c (.response id r) = .ok c) := by
  obtain ⟨c', e, hc, _⟩ := crun_ci ops _ [] (ci_start v2) hs
  rw [h] at e
  cases e
  constructor
  · intro t ht
    have hf : findId c.pend id = some t := by
      cases hf : findId c.pend id with
      | none => exact absurd rfl (findId_none hf _ ht)
      | some t' =>
        have hm := findId_some hf
        have hp := remove_id hc.ids hm
        have := hp.mem_iff.1 ht
        rcases List.mem_cons.1 this with hx | hx
        · cases hx; rfl
        · have := (List.mem_filter.1 hx).2
          simp at this
    simp only [cstep, complete, hf]
    rw [if_neg (by rw [hc.dead]; exact List.not_mem_nil)]
  · intro hn
    have hf : findId c.pend id = none := by
      cases hf : findId c.pend id with
      | none => rfl
      | some t => exact absurd (findId_some hf) (hn t)
    simp only [cstep, complete, hf]

/-- **C60.** After cancelling all calls every call issued so far is completed, exactly once. -/
theorem C60_cancelAll (v2 : Bool) (ops : List COp) (hs : ∀ o ∈ ops, sends o = true) (r : Result) :
    ∃ c, crun { ver := some v2 } (ops ++ [.cancelAll r]) = .ok c ∧ c.pend = [] ∧ (c.done.map (·.1)).Nodup ∧
      ∀ t, t < c.next ↔ t ∈ c.done.map (·.1) := by
  obtain ⟨c, e, h, _⟩ := crun_ci ops _ [] (ci_start v2) hs
  obtain ⟨c', e', h', _, hp⟩ := cstep_ci h (.cancelAll r) rfl
  have hp := hp r rfl
  have hrun : ∀ (l : List COp) (c0 : Client), crun c0 l = .ok c → crun c0 (l ++ [.cancelAll r]) = .ok c' := by
    intro l
    induction l with
    | nil => intro c0 h0; cases h0; show (cstep c (.cancelAll r) >>= fun c => crun c []) = _; rw [e']; rfl
    | cons o l ih =>
      intro c0 h0
      rw [List.cons_append, crun]
      rw [crun] at h0
      cases hx : cstep c0 o with
      | ok c1 => rw [hx] at h0; exact ih c1 h0
      | _ => rw [hx] at h0; cases h0
  refine ⟨c', hrun ops _ e, hp, ?_, ?_⟩
  · have := h'.toks
    rw [hp] at this
    exact this
  · intro t
    have h1 := h'.all t
    have h2 := h'.lt t
    rw [hp] at h1 h2
    exact ⟨h1, h2⟩

/-- Concrete case: two calls answered out of order, a late duplicate and an unknown id; a third one cancelled. -/
example : ∃ c, crun { ver := some true } [.call, .genId, .call, .response 3 ⟨.null, false⟩, .response 3 ⟨.null, true⟩, .response 9 ⟨.null, true⟩,
    .call, .response 1 ⟨.undef, true⟩, .filter [] ⟨.null, true⟩] = .ok c ∧
    c.done = [(1, .answered 3 ⟨.null, false⟩), (0, .answered 1 ⟨.undef, true⟩), (2, .cancelled 4 ⟨.null, true⟩)] := ⟨_, rfl, by decide +kernel⟩

/-- Taking identifiers only moves the counter. -/
theorem crun_genId (n : Nat) : ∀ (c : Client), crun c (List.replicate n .genId) = .ok { c with counter := (c.counter + n) % 2 ^ 32 } ∨ n = 0 := by
  induction n with
  | zero => exact fun _ => .inr rfl
  | succ n ih =>
    intro c
    left
    rw [List.replicate_succ, crun]
    show crun (gen c).2 _ = _
    have hg : (gen c).2 = { c with counter := (c.counter + 1) % 2 ^ 32 } := rfl
    rw [hg]
    rcases ih { c with counter := (c.counter + 1) % 2 ^ 32 } with h | h
    · rw [h]
      simp only [Nat.mod_add_mod]
      rw [Nat.add_assoc, Nat.add_comm 1 n]
    · subst h; rfl

/-- **C60, violation.** The counter has 32 bits: if a call stays pending until the counter comes around, the new call with the same
identifier is not registered; it is completed at once with the empty result although its request is sent. -/
theorem C60_violation_wrap : ∃ c, crun {} ([.call] ++ List.replicate (2 ^ 32 - 1) .genId ++ [.call]) = .ok c ∧
    c.pend = [(1, 0)] ∧ c.done = [(1, .dropped)] ∧ c.issued = [(0, 1), (1, 1)] := by
  have happ : ∀ (a b : List COp) (x y : Client), crun x a = .ok y → crun x (a ++ b) = crun y b := by
    intro a
    induction a with
    | nil => intro b x y h; cases h; rfl
    | cons o l ih =>
      intro b x y h
      rw [List.cons_append, crun]
      rw [crun] at h
      cases hx : cstep x o with
      | ok c1 => rw [hx] at h; exact ih b c1 y h
      | _ => rw [hx] at h; cases h
  have h1 : crun {} [.call] = .ok { counter := 1, next := 1, pend := [(1, 0)], issued := [(0, 1)] } := rfl
  have h2 : crun { counter := 1, next := 1, pend := [(1, 0)], issued := [(0, 1)] } (List.replicate (2 ^ 32 - 1) .genId) =
      .ok { counter := 0, next := 1, pend := [(1, 0)], issued := [(0, 1)] } := by
    rcases crun_genId (2 ^ 32 - 1) { counter := 1, next := 1, pend := [(1, 0)], issued := [(0, 1)] } with h | h
    · exact h
    · exact absurd h (by decide)
  rw [List.append_assoc, happ _ _ _ _ h1, happ _ _ _ _ h2]
  exact ⟨_, rfl, rfl, rfl, rfl⟩

/-- **C60, violation.** If `sendRequest` throws in a synchronous call, its entry on the stack stays registered: cancelling the calls (e.g. after
the connection is lost) touches storage that is gone. -/
theorem C60_violation_throw (r : Result) : crun {} [.callThrow, .cancelAll r] = .ub := rfl

/-- **C89, violation.** A copy of a client has its protocol version uninitialised, so preparing a call reads it. -/
theorem C89_violation_copy (c : Client) : crun (copyOf c) [.call] = .ub := rfl

/-- **C89** (partial: an original client). A client which was not copied never reads its version uninitialised, in any sequence. Missing: copies, where
it fails. -/
theorem C89_original_partial (v2 : Bool) (ops : List COp) (hs : ∀ o ∈ ops, sends o = true) :
    crun { ver := some v2 } ops ≠ .ub := by
  obtain ⟨c, e, _⟩ := crun_ci ops _ [] (ci_start v2) hs
  rw [e]; exact fun h => by cases h

example : ∀ o ∈ [COp.call, .genId, .response 1 ⟨.null, false⟩, .call], sends o = true := by decide

/-! ### Multicall -/

/-- Answer of a method that answers at most once. -/
def single : Sub → Option Ans
  | .now [] => some dropErr
  | .now [a] => some a
  | .now _ => none
  | .later a => some a

/-- Entry of `results`. -/
def ansValue : Ans → JV
  | .result v _ => v
  | .error _ => .null
/-- Entries of `errors`. -/
def ansErrs : Ans → List JV
  | .result _ _ => []
  | .error e => [e]

/-- The response of the multicall for answers in order. -/
def multiResult (l : List Ans) : JV :=
  build [(ascii "results", .arr (l.map ansValue)), (ascii "errors", .arr (l.flatMap ansErrs))]

theorem note_spec (s : Multi) (a : Ans) : (note s a).results = s.results ++ [ansValue a] ∧ (note s a).errors = s.errors ++ ansErrs a ∧
    (note s a).todo = s.todo ∧ (note s a).fork = s.fork ∧ (note s a).freed = s.freed ∧ (note s a).wait = s.wait ∧ (note s a).sent = s.sent := by
  cases a <;> simp [note, ansValue, ansErrs]

theorem multi_run : ∀ (subs : List Sub) (anss : List Ans), subs.map single = anss.map some → ∀ (s : Multi) (f g : Nat), s.todo = subs →
    s.freed = false → s.wait = none → subs.length + 3 ≤ f → subs.length + 5 ≤ g →
    ∃ s', (mrun f s >>= deliver g) = .ok s' ∧ s'.freed = true ∧ s'.sent = s.sent ++
      [(build [(ascii "results", .arr ((s.results ++ anss.map ansValue).filter isDef)),
        (ascii "errors", .arr ((s.errors ++ anss.flatMap ansErrs).filter isDef))], .undef)] := by
  intro subs
  induction subs with
  | nil =>
    intro anss ha s f g ht hf hw h1 h2
    cases anss with
    | cons _ _ => cases ha
    | nil =>
      obtain ⟨f', rfl⟩ := Nat.exists_eq_add_of_le' h1
      obtain ⟨g', rfl⟩ := Nat.exists_eq_add_of_le' h2
      rw [show f' + (List.length ([] : List Sub) + 3) = (f' + 2) + 1 from rfl, show g' + (List.length ([] : List Sub) + 5) = (g' + 4) + 1 from rfl]
      rw [mrun, if_neg (by rw [hf]; decide), ht]
      refine ⟨{ s with fork := 0, sent := s.sent ++ [_], freed := true }, ?_, rfl, rfl⟩
      simp only [Res.bind_ok, deliver, hw, ht, List.map_nil, List.flatMap_nil, List.append_nil]
  | cons u rest ih =>
    intro anss ha s f g ht hf hw h1 h2
    cases anss with
    | nil => cases ha
    | cons a anss =>
      rw [List.map_cons, List.map_cons, List.cons.injEq] at ha
      obtain ⟨hu, ha⟩ := ha
      obtain ⟨f', rfl⟩ := Nat.exists_eq_add_of_le' h1
      obtain ⟨g', rfl⟩ := Nat.exists_eq_add_of_le' h2
      rw [show f' + ((u :: rest).length + 3) = f' + rest.length + 3 + 1 from by simp; omega,
        show g' + ((u :: rest).length + 5) = g' + rest.length + 5 + 1 from by simp; omega]
      -- the rest after this answer
      have next : ∀ (x : Multi), x.todo = rest → x.freed = false → x.wait = none → x.sent = s.sent → x.results = s.results ++ [ansValue a] →
          x.errors = s.errors ++ ansErrs a → ∀ f g, rest.length + 3 ≤ f → rest.length + 5 ≤ g →
          ∃ s', (mrun f x >>= deliver g) = .ok s' ∧ s'.freed = true ∧ s'.sent = s.sent ++
            [(build [(ascii "results", .arr ((s.results ++ (a :: anss).map ansValue).filter isDef)),
              (ascii "errors", .arr ((s.errors ++ (a :: anss).flatMap ansErrs).filter isDef))], .undef)] := by
        intro x x1 x2 x3 x4 x5 x6 f g hf hg
        obtain ⟨s', e1, e2, e3⟩ := ih anss ha x f g x1 x2 x3 hf hg
        refine ⟨s', e1, e2, ?_⟩
        rw [e3, x4, x5, x6, List.map_cons, List.flatMap_cons, List.append_assoc, List.append_assoc]
        rfl
      have hnow : ∀ l, u = .now l → (if l.isEmpty then [dropErr] else l) = [a] → ∃ s', (mrun (f' + rest.length + 3 + 1) s >>=
          deliver (g' + rest.length + 5 + 1)) = .ok s' ∧ s'.freed = true ∧ s'.sent = s.sent ++
            [(build [(ascii "results", .arr ((s.results ++ (a :: anss).map ansValue).filter isDef)),
              (ascii "errors", .arr ((s.errors ++ (a :: anss).flatMap ansErrs).filter isDef))], .undef)] := by
        intro l hl hla
        rw [mrun, if_neg (by rw [hf]; decide), ht, hl]
        dsimp only
        rw [hla]
        obtain ⟨n1, n2, n3, n4, n5, n6, n7⟩ := note_spec { s with todo := rest, fork := 0 } a
        have hans : answers (f' + rest.length + 3) { s with todo := rest, fork := 0 } [a] =
            .ok { note { s with todo := rest, fork := 0 } a with fork := 1 } := by
          rw [answers, answer, if_neg (by rw [hf]; decide)]
          dsimp only
          rw [n4]
          rfl
        rw [hans]
        simp only [Res.bind_ok]
        rw [if_neg (by show ¬((note _ a).freed = true); rw [n5]; show ¬(s.freed = true); rw [hf]; decide)]
        refine next { note { s with todo := rest, fork := 0 } a with fork := 2 } n3 (n5.trans hf) (n6.trans hw) n7 n1 n2
          (f' + rest.length + 3) (g' + rest.length + 5 + 1) ?_ ?_ <;> omega
      cases u with
      | now l =>
        match l, hu with
        | [], hu => simp only [single, Option.some.injEq] at hu; exact hnow [] rfl (by rw [hu]; rfl)
        | [b], hu => simp only [single, Option.some.injEq] at hu; exact hnow [b] rfl (by rw [hu]; rfl)
        | _ :: _ :: _, hu => cases hu
      | later b =>
        simp only [single, Option.some.injEq] at hu
        subst hu
        rw [mrun, if_neg (by rw [hf]; decide), ht]
        simp only [Res.bind_ok]
        rw [deliver]
        dsimp only
        rw [show g' + rest.length + 5 = g' + rest.length + 4 + 1 from rfl, answer, if_neg (by show ¬(s.freed = true); rw [hf]; decide)]
        dsimp only
        obtain ⟨n1, n2, n3, n4, n5, n6, n7⟩ := note_spec { s with todo := rest, fork := 1, wait := none } b
        rw [n4, if_pos rfl]
        refine next { note { s with todo := rest, fork := 1, wait := none } b with fork := 2 } n3 (n5.trans hf) n6 n7 n1 n2
          (g' + rest.length + 4) (g' + rest.length + 4 + 1) ?_ ?_ <;> omega

/-- The answer carries a value. -/
def AnsDef : Ans → Prop
  | .result v _ => isDef v = true
  | .error e => isDef e = true

theorem ansDef_value (a : Ans) (h : AnsDef a) : isDef (ansValue a) = true := by
  cases a with
  | result v c => exact h
  | error e => rfl

theorem ansDef_errs (a : Ans) (h : AnsDef a) : ∀ e ∈ ansErrs a, isDef e = true := by
  cases a with
  | result v c => simp [ansErrs]
  | error e => simpa [ansErrs, AnsDef] using h

/-- **C87** (partial: every called method answers at most once, at once or later, and not with undefined; a request dropped without an answer
gets an error). A multicall ends after all answers, sends exactly one result: `results` holds for every call, in order, its result or null, `errors` the
errors in order. Missing: methods which answer more than once, or with undefined, where it fails (see the violations). -/
theorem C87_multicall_partial (subs : List Sub) (anss : List Ans) (h : subs.map single = anss.map some) (hd : ∀ a ∈ anss, AnsDef a) (f : Nat)
    (hf : subs.length + 5 ≤ f) :
    ∃ s', (mrun f { todo := subs } >>= deliver f) = .ok s' ∧ s'.sent.map (·.1) = [multiResult anss] := by
  obtain ⟨s', e1, _, e3⟩ := multi_run subs anss h { todo := subs } f f rfl rfl rfl (by omega) hf
  refine ⟨s', e1, ?_⟩
  have h1 : (([] : List JV) ++ anss.map ansValue).filter isDef = anss.map ansValue := by
    rw [List.nil_append, List.filter_eq_self]
    intro v hv
    obtain ⟨a, ha, rfl⟩ := List.mem_map.1 hv
    exact ansDef_value a (hd a ha)
  have h2 : (([] : List JV) ++ anss.flatMap ansErrs).filter isDef = anss.flatMap ansErrs := by
    rw [List.nil_append, List.filter_eq_self]
    intro v hv
    obtain ⟨a, ha, hv⟩ := List.mem_flatMap.1 hv
    exact ansDef_errs a (hd a ha) v hv
  rw [e3]
  show [build [(ascii "results", .arr ((([] : List JV) ++ anss.map ansValue).filter isDef)),
    (ascii "errors", .arr ((([] : List JV) ++ anss.flatMap ansErrs).filter isDef))]] = _
  rw [h1, h2]
  rfl

example : ∀ a ∈ [Ans.result .null .undef, .error (.str (ascii "e")), dropErr], AnsDef a := by
  simp [AnsDef, dropErr, isDef, ObjB.defd]

/-- **C87, violation.** A method answers with an undefined value: it is left out of `results` (array.cpp:158), so the results of later calls move to
the places of earlier ones. -/
theorem C87_violation_undefined (a b : JV) (ha : isDef a = true) (hb : isDef b = true) :
    ∃ s, (mrun 10 { todo := [.now [.result a .undef], .now [.result .undef .undef], .now [.result b .undef]] } >>= deliver 10) = .ok s ∧
      s.sent.map (·.1) = [build [(ascii "results", .arr [a, b]), (ascii "errors", .arr [])]] := by
  obtain ⟨s', e1, _, e3⟩ := multi_run [.now [.result a .undef], .now [.result .undef .undef], .now [.result b .undef]]
    [.result a .undef, .result .undef .undef, .result b .undef] rfl
    { todo := [.now [.result a .undef], .now [.result .undef .undef], .now [.result b .undef]] } 10 10 rfl rfl rfl (by simp) (by simp)
  refine ⟨s', e1, ?_⟩
  have hu : isDef .undef = false := rfl
  have h1 : (([] : List JV) ++ [Ans.result a .undef, .result .undef .undef, .result b .undef].map ansValue).filter isDef = [a, b] := by
    simp only [List.map_cons, List.map_nil, ansValue, List.nil_append, List.filter_cons, ha, hb, hu, List.filter_nil, if_true,
      Bool.false_eq_true, if_false]
  have h2 : (([] : List JV) ++ [Ans.result a .undef, .result .undef .undef, .result b .undef].flatMap ansErrs).filter isDef = [] := rfl
  rw [e3]
  show [build [(ascii "results", .arr (_ : List JV)), (ascii "errors", .arr (_ : List JV))]] = _
  exact congrArg₂ (fun x y => [build [(ascii "results", .arr x), (ascii "errors", .arr y)]]) h1 h2

example : isDef (.bool true) = true := rfl

example : [Sub.now [.result .null .undef], .later (.error (.str (ascii "e"))), .now []].map single =
    [Ans.result .null .undef, .error (.str (ascii "e")), dropErr].map some := rfl

/-- **C87, violation.** The last called method sets its result twice (harmless for a normal request): the context of the multicall is
deleted inside the second answer and used after it. -/
theorem C87_violation_twice (a b c d : JV) : mrun 10 { todo := [.now [.result a .undef, .result b .undef]] } = .ub ∧
    mrun 10 { todo := [.now [.error a, .error b, .result c d]] } = .ub := ⟨rfl, rfl⟩

/-- **C88, violation.** A called method changes the context; the change is collected but the result of the multicall carries no context. -/
theorem C88_violation_context : ∃ s, mrun 10 { todo := [.now [.result .null (.obj [(ascii "a", .str (ascii "x"))])]] } = .ok s ∧
    s.change = [(ascii "a", .str (ascii "x"))] ∧ s.sent.map (·.2) = [.undef] := ⟨_, rfl, by decide +kernel, by decide +kernel⟩

end Imt.Props
