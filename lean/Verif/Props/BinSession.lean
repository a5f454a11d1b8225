import Verif.Model.BinSession
import Verif.Props.BinJson
/-! # Properties of dictionaries kept between values: C121, C122 -/
namespace Imt.Props
open Imt BinJson

/-! ## C121 -/

/-- The calls the reading side has to make: the same, without the keys the serializer refused. -/
def mirror : List SStep → List Bool → List PStep
  | [], _ => []
  | .preload k :: l, true :: bs => .preload k :: mirror l bs
  | .preload _ :: l, _ :: bs => mirror l bs
  | .preload _ :: l, [] => mirror l []
  | .clear :: l, bs => .clear :: mirror l bs
  | .send _ :: l, bs => .recv :: mirror l bs

/-- The values sent. -/
def sentValues : List SStep → List BV
  | [] => []
  | .send v :: l => v :: sentValues l
  | _ :: l => sentValues l

/-- How many keys the calls can bring. -/
def load : List SStep → Nat
  | [] => 0
  | .send v :: l => nodes v + load l
  | .preload _ :: l => 1 + load l
  | .clear :: l => load l

/-- Recursion that suffices. -/
def fuelRun : List SStep → Nat
  | [] => 0
  | .send v :: l => max (fuelOf v) (fuelRun l)
  | _ :: l => fuelRun l

theorem session (fl : Flags) (env : Env) (hr : Roomy env) (l : List SStep) (hg : ∀ v ∈ sentValues l, Good fl v)
    (ss : SS) (hist RK : List Bytes) (hs : Sync fl ss hist RK.length RK) (hb : RK.length + load l + 256 < 2 ^ 32) :
    ∃ b bs ss', runS fl env ss l = .ok (b, bs, ss') ∧ ∀ f ≥ fuelRun l, ∀ rest, ∃ hist' ki',
      runP env f ⟨b ++ rest, hist, RK.length⟩ (mirror l bs) = .ok ((sentValues l).map norm, ⟨rest, hist', ki'⟩) := by
  induction l generalizing ss hist RK with
  | nil => exact ⟨[], [], ss, rfl, fun f _ rest => ⟨hist, RK.length, rfl⟩⟩
  | cons s l ih =>
    cases s with
    | clear =>
      obtain ⟨b, bs, ss', h1, h2⟩ := ih hg SS.init [] [] (Sync.init fl) (by
        have : load (.clear :: l) = load l := rfl
        simp only [List.length_nil]; omega)
      exact ⟨b, bs, ss', h1, fun f hf rest => h2 f hf rest⟩
    | send v =>
      have hl : load (.send v :: l) = nodes v + load l := rfl
      obtain ⟨vb, ss1, hist1, RK1, v1, v2, v3, v4⟩ := trip fl env hr v (hg v (by simp [sentValues])) ss hist RK hs
        (by omega)
      obtain ⟨b, bs, ss', h1, h2⟩ := ih (fun w hw => hg w (List.mem_cons_of_mem _ hw)) ss1 hist1 RK1 v2 (by omega)
      refine ⟨vb ++ b, bs, ss', by simp [runS, v1, h1], fun f hf rest => ?_⟩
      have hf : max (fuelOf v) (fuelRun l) ≤ f := hf
      obtain ⟨hist', ki', h3⟩ := h2 f (by omega) rest
      refine ⟨hist', ki', ?_⟩
      rw [mirror, runP, List.append_assoc, v4 f _ (by omega), Res.bind_ok, h3, Res.bind_ok]
      rfl
    | preload k =>
      have hl : load (.preload k :: l) = 1 + load l := rfl
      have stored : ∀ ss1, (fl.compressKeys = true → ss1.next = 256 + (RK.length + 1) ∧
          ∀ x, ss1.ids x = if x ∈ k :: RK then 255 + (RK.length + 1) - (k :: RK).idxOf x else 0) →
          ∃ b bs ss', runS fl env ss1 l = .ok (b, bs, ss') ∧ ∀ f ≥ fuelRun l, ∀ rest, ∃ hist' ki',
            runP env f ⟨b ++ rest, hist, RK.length⟩ (.preload k :: mirror l bs) =
              .ok ((sentValues l).map norm, ⟨rest, hist', ki'⟩) := by
        intro ss1 hid
        obtain ⟨hist1, g1, g2, g3⟩ := storeKey_ring [] hist RK k (by omega) hs.len hs.ring
        obtain ⟨b, bs, ss', h1, h2⟩ := ih hg ss1 hist1 (k :: RK) ⟨rfl, g2, g3, hid⟩
          (by simp only [List.length_cons]; omega)
        refine ⟨b, bs, ss', h1, fun f hf rest => ?_⟩
        obtain ⟨hist', ki', h3⟩ := h2 f hf rest
        refine ⟨hist', ki', ?_⟩
        obtain ⟨hist2, q1, q2, q3⟩ := storeKey_ring (b ++ rest) hist RK k (by omega) hs.len hs.ring
        have : hist2 = hist1 := by
          unfold storeKey at g1 q1
          simp only at g1 q1
          split at g1
          · next h => rw [if_pos h] at q1; simp at g1 q1; rw [← g1.1, ← q1.1]
          · next h =>
            rw [if_neg h] at q1
            split at g1
            · next h => rw [if_pos h] at q1; simp at g1 q1; rw [← g1.1, ← q1.1]
            · simp at g1
        subst this
        rw [runP, preloadP, q1, Res.bind_ok]
        exact h3
      by_cases hc : fl.compressKeys = true
      · rcases tryCompress_spec fl hc ss hist _ RK hs (by omega) k with ⟨code, t1, t2, t3⟩ | ⟨ss1, t1, t2, t3⟩
        · obtain ⟨b, bs, ss', h1, h2⟩ := ih hg ss hist RK hs (by omega)
          refine ⟨b, false :: bs, ss', ?_, h2⟩
          rw [runS, show preloadS ss k = (false, ss) by simp [preloadS, t1], h1]; rfl
        · obtain ⟨b, bs, ss', h1, h2⟩ := stored ss1 (fun _ => ⟨t2, t3⟩)
          refine ⟨b, true :: bs, ss', ?_, h2⟩
          rw [runS, show preloadS ss k = (true, ss1) by simp [preloadS, t1], h1]; rfl
      · cases hp : (preloadS ss k).1 with
        | true =>
          obtain ⟨b, bs, ss', h1, h2⟩ := stored (preloadS ss k).2 (fun h => absurd h hc)
          refine ⟨b, true :: bs, ss', ?_, h2⟩
          rw [runS, h1, hp]; rfl
        | false =>
          obtain ⟨b, bs, ss', h1, h2⟩ := ih hg (preloadS ss k).2 hist RK
            ⟨hs.ki_eq, hs.len, hs.ring, fun h => absurd h hc⟩ (by omega)
          refine ⟨b, false :: bs, ss', ?_, h2⟩
          rw [runS, h1, hp]; rfl

/-- C121 for values described by `Good` (see C18) and fewer than 2^32-256 keys: any calls of one serializer - values,
preloaded keys, emptied dictionaries, in any order - are read back by a parser which is given the same calls, the keys
the serializer refused left out. Exactly the bytes written are consumed. Missing from the full claim: the values and
numbers of keys for which C18 and C19 fail. -/
theorem C121_session_partial (fl : Flags) (env : Env) (hr : Roomy env) (l : List SStep)
    (hg : ∀ v ∈ sentValues l, Good fl v) (hb : load l + 256 < 2 ^ 32) :
    ∃ b bs ss', runS fl env SS.init l = .ok (b, bs, ss') ∧ ∃ F, ∀ f ≥ F, ∀ rest, ∃ hist' ki',
      runP env f ⟨b ++ rest, [], 0⟩ (mirror l bs) = .ok ((sentValues l).map norm, ⟨rest, hist', ki'⟩) := by
  obtain ⟨b, bs, ss', h1, h2⟩ := session fl env hr l hg SS.init [] [] (Sync.init fl) (by simpa using hb)
  exact ⟨b, bs, ss', h1, fuelRun l, h2⟩

/-- Preloaded keys, then values. -/
def withKeys (ks : List Bytes) (vs : List BV) : List SStep := ks.map .preload ++ vs.map .send

/-- The same on the reading side, the very same keys. -/
def readKeys (ks : List Bytes) (n : Nat) : List PStep := ks.map .preload ++ List.replicate n .recv

theorem sent_withKeys (ks : List Bytes) (vs : List BV) : sentValues (withKeys ks vs) = vs := by
  induction ks with
  | nil => induction vs with
    | nil => rfl
    | cons v vs ih => exact congrArg (v :: ·) ih
  | cons k ks ih => exact ih

theorem load_withKeys (ks : List Bytes) (vs : List BV) : load (withKeys ks vs) = ks.length + nodesL vs := by
  induction ks with
  | nil => induction vs with
    | nil => rfl
    | cons v vs ih =>
      have : load (withKeys [] (v :: vs)) = nodes v + load (withKeys [] vs) := rfl
      rw [this, ih, nodesL]; simp
  | cons k ks ih =>
    have : load (withKeys (k :: ks) vs) = 1 + load (withKeys ks vs) := rfl
    rw [this, ih, List.length_cons]; omega

theorem mirror_sends (vs : List BV) (bs : List Bool) :
    mirror (vs.map .send) bs = List.replicate vs.length .recv := by
  induction vs with
  | nil => rfl
  | cons v vs ih => rw [List.map_cons, mirror, ih]; rfl

/-- A key not met before is stored. -/
theorem preload_new (ss : SS) (m : Nat) (hm : ss.next = 256 + m) (hb : m + 256 < 2 ^ 32) (k : Bytes)
    (h0 : ss.ids k = 0) :
    preloadS ss k = (true, ⟨fun x => if x = k then ss.next else ss.ids x, (ss.next + 1) % 2 ^ 32⟩) := by
  have e : tryCompressKey ss k = (none, ⟨fun x => if x = k then ss.next else ss.ids x, (ss.next + 1) % 2 ^ 32⟩) := by
    unfold tryCompressKey
    simp only
    rw [if_neg]
    rw [h0, hm]; omega
  unfold preloadS
  rw [e]
  rfl

/-- Distinct keys are all taken. -/
theorem preload_distinct (fl : Flags) (env : Env) (ks : List Bytes) (hn : ks.Nodup) (vs : List BV) (ss : SS) (m : Nat)
    (hm : ss.next = 256 + m) (hb : m + ks.length + 256 < 2 ^ 32) (h0 : ∀ k ∈ ks, ss.ids k = 0)
    (b : Bytes) (bs : List Bool) (ss' : SS) (h : runS fl env ss (withKeys ks vs) = .ok (b, bs, ss')) :
    mirror (withKeys ks vs) bs = readKeys ks vs.length := by
  induction ks generalizing ss m bs with
  | nil => exact mirror_sends vs bs
  | cons k ks ih =>
    rw [List.length_cons] at hb
    obtain ⟨hk, hn⟩ := List.nodup_cons.1 hn
    have e : preloadS ss k = (true, ⟨fun x => if x = k then ss.next else ss.ids x, (ss.next + 1) % 2 ^ 32⟩) := 
      preload_new ss m hm (by omega) k (h0 k (by simp))
    have e2 : runS fl env ss (withKeys (k :: ks) vs) = (do
        let r ← runS fl env (preloadS ss k).2 (withKeys ks vs)
        pure (r.1, (preloadS ss k).1 :: r.2.1, r.2.2)) := rfl
    rw [e2, e] at h
    cases hx : runS fl env ⟨fun x => if x = k then ss.next else ss.ids x, (ss.next + 1) % 2 ^ 32⟩ (withKeys ks vs) with
    | ok r =>
      obtain ⟨b1, bs1, ss1⟩ := r
      simp only [hx, Res.bind_ok, Res.pure_eq, Res.ok.injEq, Prod.mk.injEq] at h
      obtain ⟨rfl, rfl, rfl⟩ := h
      have := ih hn ⟨fun x => if x = k then ss.next else ss.ids x, (ss.next + 1) % 2 ^ 32⟩ (m + 1)
        (by show (ss.next + 1) % 2 ^ 32 = _
            rw [hm]; omega) (by omega)
        (fun x hy => by
          show (if x = k then ss.next else ss.ids x) = 0
          rw [if_neg (by intro e; rw [e] at hy; exact hk hy)]
          exact h0 x (List.mem_cons_of_mem _ hy)) bs1 hx
      change PStep.preload k :: mirror (withKeys ks vs) bs1 = .preload k :: readKeys ks vs.length
      rw [this]
    | err => simp [hx] at h
    | ub => simp [hx] at h
    | abort => simp [hx] at h
    | fuel => simp [hx] at h

/-- C121, the documented use: the same distinct keys preloaded in the same order on both sides, then any values. Missing
as in `C121_session_partial`. -/
theorem C121_preloaded_partial (fl : Flags) (env : Env) (hr : Roomy env) (ks : List Bytes) (hn : ks.Nodup)
    (vs : List BV) (hg : ∀ v ∈ vs, Good fl v) (hb : ks.length + nodesL vs + 256 < 2 ^ 32) :
    ∃ b bs ss', runS fl env SS.init (withKeys ks vs) = .ok (b, bs, ss') ∧ ∃ F, ∀ f ≥ F, ∀ rest, ∃ hist' ki',
      runP env f ⟨b ++ rest, [], 0⟩ (readKeys ks vs.length) = .ok (vs.map norm, ⟨rest, hist', ki'⟩) := by
  obtain ⟨b, bs, ss', h1, h2⟩ := C121_session_partial fl env hr (withKeys ks vs)
    (by rw [sent_withKeys]; exact hg) (by rw [load_withKeys]; exact hb)
  have := preload_distinct fl env ks hn vs SS.init 0 rfl (by omega) (fun _ _ => rfl) b bs ss' h1
  rw [this, sent_withKeys] at h2
  exact ⟨b, bs, ss', h1, h2⟩

/-- A preloaded key costs one byte from its first use on. -/
theorem C121_short (fl : Flags) (hc : fl.compressKeys = true) (env : Env) (ks : List Bytes) (hn : ks.Nodup)
    (hb : ks.length ≤ 128) (k : Bytes) (hk : k ∈ ks) (h0 : k ≠ []) :
    ∃ ss c, (∀ vs, runS fl env SS.init (withKeys ks vs) = (do
        let r ← runS fl env ss (vs.map .send)
        pure (r.1, ks.map (fun _ => true) ++ r.2.1, r.2.2))) ∧
      serKey fl env ss k = .ok ([c], ss) := by
  have gen : ∀ (ks : List Bytes) (_ : ks.Nodup) (m : Nat) (s0 : SS) (_ : s0.next = 256 + m) (_ : m + ks.length ≤ 128)
      (_ : ∀ k ∈ ks, s0.ids k = 0), ∃ ss, (∀ vs, runS fl env s0 (withKeys ks vs) = (do
        let r ← runS fl env ss (vs.map .send)
        pure (r.1, ks.map (fun _ => true) ++ r.2.1, r.2.2))) ∧ ss.next = 256 + m + ks.length ∧
        (∀ x, x ∉ ks → ss.ids x = s0.ids x) ∧ ∀ x ∈ ks, 256 + m ≤ ss.ids x ∧ ss.ids x < 256 + m + ks.length := by
    intro ks
    induction ks with
    | nil =>
      intro _ m s0 hm _ _
      refine ⟨s0, fun vs => ?_, by simpa using hm, fun _ _ => rfl, by simp⟩
      show runS fl env s0 (vs.map .send) = _
      cases runS fl env s0 (vs.map .send) <;> rfl
    | cons k ks ih =>
      intro hn m s0 hm hb h0
      rw [List.length_cons] at hb
      obtain ⟨hk, hn⟩ := List.nodup_cons.1 hn
      have e : preloadS s0 k = (true, ⟨fun x => if x = k then s0.next else s0.ids x, (s0.next + 1) % 2 ^ 32⟩) := 
        preload_new s0 m hm (by omega) k (h0 k (by simp))
      obtain ⟨ss, a1, a2, a3, a4⟩ := ih hn (m + 1)
        ⟨fun x => if x = k then s0.next else s0.ids x, (s0.next + 1) % 2 ^ 32⟩
        (by show (s0.next + 1) % 2 ^ 32 = _
            rw [hm]; omega) (by omega)
        (fun x hx => by
          show (if x = k then s0.next else s0.ids x) = 0
          rw [if_neg (by intro e; rw [e] at hx; exact hk hx)]
          exact h0 x (List.mem_cons_of_mem _ hx))
      refine ⟨ss, fun vs => ?_, by rw [a2, List.length_cons]; omega, fun x hx => ?_, fun x hx => ?_⟩
      · have e2 : runS fl env s0 (withKeys (k :: ks) vs) = (do
            let r ← runS fl env (preloadS s0 k).2 (withKeys ks vs)
            pure (r.1, (preloadS s0 k).1 :: r.2.1, r.2.2)) := rfl
        rw [e2, e]
        simp only
        rw [a1 vs]
        cases runS fl env ss (vs.map .send) <;> rfl
      · have hx' : x ≠ k ∧ x ∉ ks := by simpa using hx
        rw [a3 x hx'.2]
        show (if x = k then s0.next else s0.ids x) = _
        rw [if_neg hx'.1]
      · rw [List.length_cons]
        by_cases h : x ∈ ks
        · have := a4 x h
          omega
        · have hxk : x = k := by simpa [h] using hx
          have := a3 x h
          rw [this]
          show _ ≤ (if x = k then s0.next else s0.ids x) ∧ (if x = k then s0.next else s0.ids x) < _
          rw [if_pos hxk, hm]; omega
  obtain ⟨ss, a1, a2, a3, a4⟩ := gen ks hn 0 SS.init rfl (by omega) (fun _ _ => rfl)
  obtain ⟨b1, b2⟩ := a4 k hk
  have e : tryCompressKey ss k = (some (ss.next - ss.ids k - 1), ss) := by
    have : (ss.next + (2 ^ 32 - ss.ids k) + (2 ^ 32 - 1)) % 2 ^ 32 = ss.next - ss.ids k - 1 := by omega
    unfold tryCompressKey
    simp only
    rw [this, if_pos (by omega)]
  refine ⟨ss, 0x80 ||| (ss.next - ss.ids k - 1), a1, ?_⟩
  unfold serKey
  rw [if_neg h0, if_pos hc, e]

example : ([ascii "id", ascii "name", ascii "x"] : List Bytes).Nodup ∧ Good ⟨true, true, true⟩ sample ∧
    3 + nodesL [sample, sample] + 256 < 2 ^ 32 := by
  refine ⟨by decide, ?_, by decide⟩
  simp [sample, Good, GoodL, TextOk, ShapeOk, StartOk, Fits, Bytes.Valid, ascii]

/-- A member. -/
def oneKey (k : Bytes) : BV := .node [] (.obj false) [.node k .null []]

/-- Keys at the top of a value. -/
def bvTopKeys : BV → List Bytes
  | .node _ _ kids => kids.map fun
    | .node k _ _ => k

/-- Keys preloaded on both sides, one value: the answers of the serializer and the keys at the top of what is read. -/
def tripKeys (ks : List Bytes) (v : BV) : Res (List Bool × List (List Bytes)) := do
  let w ← runS ⟨true, false, false⟩ env0 SS.init (withKeys ks [v])
  let r ← runP env0 20 ⟨w.1, [], 0⟩ (readKeys ks 1)
  pure (w.2.1, r.1.map bvTopKeys)

/-- C121 needs the keys to be distinct, or the answers of the serializer to be followed: with `a`, `b`, `a` preloaded on
both sides the member `b` is read as `a`, with no error. -/
theorem C121_duplicate : tripKeys [ascii "a", ascii "b", ascii "a"] (oneKey (ascii "b")) =
    .ok ([true, true, false], [[ascii "a"]]) := by
  decide +kernel

example : tripKeys [ascii "a", ascii "b"] (oneKey (ascii "b")) = .ok ([true, true], [[ascii "b"]]) := by
  decide +kernel

/-- Two values on one serializer, read by one parser: the second one as it is read. -/
def tripAfter (v w : BV) : Res (List (Shape × List Bytes)) := do
  let b ← runS ⟨true, false, false⟩ env0 SS.init [.send v, .send w]
  let r ← runP env0 20 ⟨b.1, [], 0⟩ [.recv, .recv]
  pure (r.1.map fun x => match x with | .node _ sh kids => (sh, kids.map fun k => match k with | .node k _ _ => k))

/-- **C121 does not hold for the values C18 fails for**: a text whose first byte is above 0x7F and below 0xC0 and an empty binary
value are read back as other values; what follows them is read right. -/
theorem C121_violation_values :
    tripAfter (.node [] (.str [0x80, 0x41]) []) (oneKey (ascii "b")) = .ok [(.str [0xC0, 0x41], []), (.obj false, [ascii "b"])] ∧
    tripAfter (.node [] (.bin []) []) (oneKey (ascii "b")) = .ok [(.str [], []), (.obj false, [ascii "b"])] := by
  decide +kernel

/-! ## C122 -/

/-- Owner of the text a call puts into the dictionary. -/
def ownerOf : LStep → Option Nat
  | .preload _ o => some o
  | .send _ o => some o
  | _ => none

/-- Is it a call of `clearKeys`? -/
def isClear : LStep → Bool
  | .clear => true
  | _ => false

/-- An owner is released only when the dictionary has been emptied since its last use, and is not used afterwards. -/
def Careful (l : List LStep) : Prop :=
  ∀ a o b, l = a ++ .release o :: b →
    (∀ c s d, a = c ++ s :: d → ownerOf s = some o → d.any isClear = true) ∧ ∀ s ∈ b, ownerOf s ≠ some o

/-- Nothing in the dictionary belongs to a released owner. -/
def MemOk (m : Mem) : Prop := ∀ e ∈ m.own, e.2 ∉ m.dead

theorem look_ok (h : Bytes → Nat) (m : Mem) (hm : MemOk m) (o : Nat) (ho : o ∉ m.dead) (k : Bytes) :
    ∃ m', look h m o k = .ok m' ∧ MemOk m' ∧ m'.dead = m.dead ∧ ∀ e ∈ m'.own, e ∈ m.own ∨ e.2 = o := by
  unfold look
  rw [if_neg (by
    rw [List.any_eq_true]
    rintro ⟨e, he, h2⟩
    simp only [Bool.and_eq_true, List.contains_iff_mem] at h2
    exact hm e he h2.2)]
  split
  · exact ⟨m, rfl, hm, rfl, fun e he => Or.inl he⟩
  · refine ⟨_, rfl, fun e he => ?_, rfl, fun e he => ?_⟩
    · rcases List.mem_cons.1 he with rfl | he
      · exact ho
      · exact hm e he
    · rcases List.mem_cons.1 he with rfl | he
      · exact Or.inr rfl
      · exact Or.inl he

theorem looks_ok (h : Bytes → Nat) (ks : List Bytes) (m : Mem) (hm : MemOk m) (o : Nat) (ho : o ∉ m.dead) :
    ∃ m', looks h m o ks = .ok m' ∧ MemOk m' ∧ m'.dead = m.dead ∧ ∀ e ∈ m'.own, e ∈ m.own ∨ e.2 = o := by
  induction ks generalizing m with
  | nil => exact ⟨m, rfl, hm, rfl, fun e he => Or.inl he⟩
  | cons k ks ih =>
    obtain ⟨m1, a1, a2, a3, a4⟩ := look_ok h m hm o ho k
    obtain ⟨m2, b1, b2, b3, b4⟩ := ih m1 a2 (by rw [a3]; exact ho)
    refine ⟨m2, by rw [looks, a1, Res.bind_ok, b1], b2, by rw [b3, a3], fun e he => ?_⟩
    rcases b4 e he with h' | h'
    · exact a4 e h'
    · exact Or.inr h'

theorem mem_run (fl : Flags) (h : Bytes → Nat) (l : List LStep) (pre : List LStep) (hc : Careful (pre ++ l)) (m : Mem)
    (hm : MemOk m)
    (hown : ∀ e ∈ m.own, ∃ c s d, pre = c ++ s :: d ∧ ownerOf s = some e.2 ∧ d.any isClear = false)
    (hdead : ∀ o ∈ m.dead, ∃ a b, pre = a ++ .release o :: b) :
    ∃ m', memRun fl h m l = .ok m' := by
  induction l generalizing pre m with
  | nil => exact ⟨m, rfl⟩
  | cons s l ih =>
    have hc' : Careful ((pre ++ [s]) ++ l) := by rw [List.append_assoc]; exact hc
    have stay : ∀ o, ownerOf s = some o → o ∉ m.dead := by
      intro o ho hd
      obtain ⟨a, b, rfl⟩ := hdead o hd
      exact (hc a o (b ++ s :: l) (by simp)).2 s (by simp) ho
    have dead' : ∀ o ∈ m.dead, ∃ a b, pre ++ [s] = a ++ .release o :: b := by
      intro o hd
      obtain ⟨a, b, rfl⟩ := hdead o hd
      exact ⟨a, b ++ [s], by simp⟩
    have old : ∀ e ∈ m.own, isClear s = false → ∃ c s' d, pre ++ [s] = c ++ s' :: d ∧ ownerOf s' = some e.2 ∧
        d.any isClear = false := by
      intro e he hs
      obtain ⟨c, s', d, rfl, h2, h3⟩ := hown e he
      exact ⟨c, s', d ++ [s], by simp, h2, by simp [List.any_append, h3, hs]⟩
    have go : ∀ m1, memStep fl h m s = .ok m1 → MemOk m1 →
        (∀ e ∈ m1.own, ∃ c s' d, pre ++ [s] = c ++ s' :: d ∧ ownerOf s' = some e.2 ∧ d.any isClear = false) →
        (∀ o ∈ m1.dead, ∃ a b, pre ++ [s] = a ++ .release o :: b) → ∃ m', memRun fl h m (s :: l) = .ok m' := by
      intro m1 h1 h2 h3 h4
      obtain ⟨m', h5⟩ := ih (pre ++ [s]) hc' m1 h2 h3 h4
      exact ⟨m', by rw [memRun, h1, Res.bind_ok, h5]⟩
    have grown : ∀ o m1, ownerOf s = some o → isClear s = false → memStep fl h m s = .ok m1 → MemOk m1 →
        m1.dead = m.dead → (∀ e ∈ m1.own, e ∈ m.own ∨ e.2 = o) → ∃ m', memRun fl h m (s :: l) = .ok m' := by
      intro o m1 ho hs h1 h2 h3 h4
      refine go m1 h1 h2 (fun e he => ?_) (by rw [h3]; exact dead')
      rcases h4 e he with h' | h'
      · exact old e h' hs
      · exact ⟨pre, s, [], rfl, by rw [h']; exact ho, rfl⟩
    cases s with
    | clear => exact go _ rfl (by intro e he; cases he) (by intro e he; cases he) dead'
    | release o =>
      refine go _ rfl (fun e he hd => ?_) (fun e he => old e he rfl) (fun o' hd => ?_)
      · rcases List.mem_cons.1 hd with h' | hd
        · obtain ⟨c, s', d, e1, e2, e3⟩ := hown e he
          have := (hc pre o l rfl).1 c s' d e1 (by rw [e2, h'])
          rw [e3] at this
          exact absurd this (by decide)
        · exact hm e he hd
      · rcases List.mem_cons.1 hd with rfl | hd
        · exact ⟨pre, [], rfl⟩
        · exact dead' o' hd
    | preload k o =>
      obtain ⟨m1, a1, a2, a3, a4⟩ := look_ok h m hm o (stay o rfl) k
      exact grown o m1 rfl rfl a1 a2 a3 a4
    | send v o =>
      by_cases hf : fl.compressKeys = true
      · obtain ⟨m1, a1, a2, a3, a4⟩ := looks_ok h (keysOf v) m hm o (stay o rfl)
        exact grown o m1 rfl rfl (by rw [memStep, if_pos hf]; exact a1) a2 a3 a4
      · exact go m (by rw [memStep, if_neg hf]) hm (fun e he => old e he rfl) dead'

/-- C122, what is enough: when an owner is released only after the dictionary has been emptied, no key is compared with
released memory, whatever the hash. Missing from the full claim: releasing a value as soon as it has been serialised,
for which it fails. -/
theorem C122_careful_partial (fl : Flags) (h : Bytes → Nat) (l : List LStep) (hc : Careful l) :
    ∃ m, memRun fl h ⟨[], []⟩ l = .ok m :=
  mem_run fl h l [] hc ⟨[], []⟩ (by intro e he; cases he) (by intro e he; cases he) (by intro o ho; cases ho)

example : Careful [.preload (ascii "a") 1, .send (oneKey (ascii "a")) 2, .clear, .release 2, .release 1,
    .send (oneKey (ascii "a")) 3] := by
  intro a o b hl
  match a with
  | [] => simp at hl
  | [_] => simp at hl
  | [_, _] => simp at hl
  | [x, y, z] =>
    simp at hl
    obtain ⟨rfl, rfl, rfl, rfl, rfl⟩ := hl
    refine ⟨fun c s d hd ho => ?_, by simp [ownerOf]⟩
    match c with
    | [] => simp at hd; obtain ⟨rfl, rfl⟩ := hd; simp [ownerOf] at ho
    | [_] => simp at hd; obtain ⟨_, rfl, rfl⟩ := hd; simp [isClear]
    | [_, _] => simp at hd; obtain ⟨_, _, rfl, rfl⟩ := hd; simp [ownerOf] at ho
    | _ :: _ :: _ :: _ => simp at hd
  | [x, y, z, w] =>
    simp at hl
    obtain ⟨rfl, rfl, rfl, rfl, rfl, rfl⟩ := hl
    refine ⟨fun c s d hd ho => ?_, by simp [ownerOf]⟩
    match c with
    | [] => simp at hd; obtain ⟨rfl, rfl⟩ := hd; simp [isClear]
    | [_] => simp at hd; obtain ⟨_, rfl, rfl⟩ := hd; simp [ownerOf] at ho
    | [_, _] => simp at hd; obtain ⟨_, _, rfl, rfl⟩ := hd; simp [ownerOf] at ho
    | [_, _, _] => simp at hd; obtain ⟨_, _, _, rfl, rfl⟩ := hd; simp [ownerOf] at ho
    | _ :: _ :: _ :: _ :: _ => simp at hd
  | [_, _, _, _, _] => simp at hl
  | _ :: _ :: _ :: _ :: _ :: _ :: _ => simp at hl

theorem looks_head (h : Bytes → Nat) (k : Bytes) (ks : List Bytes) (o : Nat) (m m' : Mem) (hk : (k, o) ∈ m.own)
    (hl : looks h m o ks = .ok m') : (k, o) ∈ m'.own := by
  induction ks generalizing m with
  | nil =>
    have : m = m' := by simpa [looks] using hl
    rw [← this]; exact hk
  | cons x xs ih =>
    rw [looks] at hl
    unfold look at hl
    split at hl
    · simp at hl
    · split at hl
      · exact ih m hk (by simpa using hl)
      · exact ih _ (List.mem_cons_of_mem _ hk) (by simpa using hl)

/-- C122 fails: a value with a key is serialised and released, then the next value with that key is serialised; the key
is compared with the released memory. Whatever the hash and the values. -/
theorem C122_violation_released (b c : Bool) (h : Bytes → Nat) (v w : BV) (k : Bytes) (ks ks' : List Bytes)
    (hv : keysOf v = k :: ks) (hw : keysOf w = k :: ks') :
    memRun ⟨true, b, c⟩ h ⟨[], []⟩ [.send v 1, .release 1, .send w 2] = .ub := by
  obtain ⟨m1, a1, a2, a3, a4⟩ := looks_ok h (k :: ks) ⟨[], []⟩ (by intro e he; cases he) 1 (by simp)
  have hk : (k, 1) ∈ m1.own := by
    have e : looks h ⟨[], []⟩ 1 (k :: ks) = looks h ⟨[(k, 1)], []⟩ 1 ks := rfl
    rw [e] at a1
    exact looks_head h k ks 1 _ m1 (by simp) a1
  have e1 : memStep ⟨true, b, c⟩ h ⟨[], []⟩ (.send v 1) = .ok m1 := by rw [memStep, hv]; exact a1
  have e2 : memStep ⟨true, b, c⟩ h ⟨m1.own, 1 :: m1.dead⟩ (.send w 2) = .ub := by
    rw [memStep, if_pos rfl, hw, looks, look, if_pos]
    · rfl
    · rw [List.any_eq_true]
      exact ⟨(k, 1), hk, by simp⟩
  rw [memRun, e1, Res.bind_ok, memRun]
  simp only [memStep, Res.bind_ok]
  rw [memRun]
  have e3 : memStep ⟨true, b, c⟩ h { m1 with dead := 1 :: m1.dead } (.send w 2) = .ub := e2
  rw [e3]
  rfl

example : keysOf (oneKey (ascii "a")) = ascii "a" :: [] := rfl

theorem bind_inv {α β : Type} {x : Res α} {f : α → Res β} {r : β} (h : (x >>= f) = .ok r) :
    ∃ a, x = .ok a ∧ f a = .ok r := by
  cases x with
  | ok a => exact ⟨a, rfl, h⟩
  | err => cases h
  | ub => cases h
  | abort => cases h
  | fuel => cases h

theorem serKey_dict (fl : Flags) (env : Env) (ss : SS) (k : Bytes) (r : Bytes × SS) (h : serKey fl env ss k = .ok r) :
    r.2 = if k = [] ∨ fl.compressKeys = false then ss else (tryCompressKey ss k).2 := by
  unfold serKey at h
  generalize tryCompressKey ss k = t at h ⊢
  by_cases hk : k = []
  · rw [if_pos hk] at h
    rw [if_pos (Or.inl hk)]
    cases h; rfl
  rw [if_neg hk] at h
  by_cases hc : fl.compressKeys = true
  · rw [if_pos hc] at h
    rw [if_neg (by simp [hk, hc])]
    obtain ⟨c, s⟩ := t
    cases c with
    | some c => cases h; rfl
    | none =>
      obtain ⟨b, _, h2⟩ := bind_inv h
      cases h2; rfl
  · rw [if_neg hc] at h
    rw [if_pos (Or.inr (by simpa using hc))]
    obtain ⟨b, _, h2⟩ := bind_inv h
    cases h2; rfl

mutual
theorem ser_dict (fl : Flags) (hc : fl.compressKeys = true) (env : Env) (v : BV) (ss : SS) (r : Bytes × SS)
    (h : ser fl env ss v = .ok r) : r.2 = (keysOf v).foldl (fun s k => (tryCompressKey s k).2) ss := by
  match v with
  | .node key sh kids =>
    rw [ser] at h
    obtain ⟨a, h1, h⟩ := bind_inv h
    obtain ⟨c, h2, h⟩ := bind_inv h
    obtain ⟨d, h3, h⟩ := bind_inv h
    have : r.2 = d.2 := by cases h; rfl
    rw [this, serL_dict fl hc env kids a.2 d h3, serKey_dict fl env ss key a h1, keysOf, List.foldl_append]
    by_cases hk : key = []
    · rw [if_pos (Or.inl hk), if_pos hk, List.foldl_nil]
    · rw [if_neg (by simp [hk, hc]), if_neg hk, List.foldl_cons, List.foldl_nil]
theorem serL_dict (fl : Flags) (hc : fl.compressKeys = true) (env : Env) (l : List BV) (ss : SS) (r : Bytes × SS)
    (h : serL fl env ss l = .ok r) : r.2 = (keysOfL l).foldl (fun s k => (tryCompressKey s k).2) ss := by
  match l with
  | [] =>
    rw [serL] at h
    cases h; rfl
  | v :: l =>
    rw [serL] at h
    obtain ⟨a, h1, h⟩ := bind_inv h
    obtain ⟨d, h3, h⟩ := bind_inv h
    have : r.2 = d.2 := by cases h; rfl
    rw [this, serL_dict fl hc env l a.2 d h3, ser_dict fl hc env v ss a h1, keysOfL, List.foldl_append]
end

/-- The keys whose lookups the memory model follows are those the serializer makes: the dictionary it leaves is the one
after looking up exactly these, in this order. -/
theorem C122_lookups (fl : Flags) (hc : fl.compressKeys = true) (env : Env) (v : BV) (ss : SS) (r : Bytes × SS)
    (h : ser fl env ss v = .ok r) : r.2 = (keysOf v).foldl (fun s k => (tryCompressKey s k).2) ss :=
  ser_dict fl hc env v ss r h

example : ∃ r, ser ⟨true, false, false⟩ env0 SS.init (oneKey (ascii "a")) = .ok r := by
  obtain ⟨b, ss', _, _, h, _⟩ := trip ⟨true, false, false⟩ env0 env0_roomy (oneKey (ascii "a"))
    (by simp [oneKey, Good, GoodL, TextOk, ShapeOk, StartOk, Fits, Bytes.Valid, ascii]) SS.init [] [] (Sync.init _)
    (by simp [oneKey, nodes, nodesL])
  exact ⟨_, h⟩

end Imt.Props
