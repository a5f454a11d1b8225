import Verif.Lemmas.BinJson
/-! # Binary JSON: the parser reads back what the serializer wrote -/
namespace Imt.BinJson
open Imt

theorem allocArr_ok (env : Env) (hr : Roomy env) (n : Nat) (hn : n < 2 ^ 60) : allocArr env n = .ok n := by
  obtain ⟨h1, h2, h3, h4, _⟩ := hr
  unfold allocArr
  simp only
  have e : (env.objArr + n * 8) % 2 ^ 64 = env.objArr + n * 8 := Nat.mod_eq_of_lt (by omega)
  rw [if_neg (by rw [h1 _ (Nat.mod_lt _ (by decide))]; decide), e, if_neg (by omega)]
  congr 1; omega

/-- Reading a node without its key: `cnt` items follow. -/
def Body (env : Env) (sh : Shape) (cnt : Nat) (f : Nat) (ps : PS) : Res (BV × PS) := do
  let r ← parseItems env f cnt cnt ps
  pure (.node [] sh r.1, r.2)

theorem Body_scalar (env : Env) (sh : Shape) (f : Nat) (ps : PS) :
    Body env sh 0 (f + 1) ps = .ok (.node [] sh [], ps) := by
  simp [Body, parseItems]

theorem serShape_spec (fl : Flags) (env : Env) (hr : Roomy env) (sh : Shape) (cnt : Nat) (hs : ShapeOk fl sh cnt) :
    ∃ b, serShape fl env sh cnt = .ok b ∧
      ∀ f rest h k, parseItem env (f + 2) ⟨b ++ rest, h, k⟩ = Body env (normShape sh) cnt (f + 1) ⟨rest, h, k⟩ := by
  cases sh with
  | undef =>
    obtain rfl : cnt = 0 := hs
    exact ⟨_, rfl, fun f rest h k => by rw [Body_scalar]; simp [parseItem, next, normShape]⟩
  | null =>
    obtain rfl : cnt = 0 := hs
    exact ⟨_, rfl, fun f rest h k => by rw [Body_scalar]; simp [parseItem, next, normShape]⟩
  | bool b =>
    obtain rfl : cnt = 0 := hs
    refine ⟨_, rfl, fun f rest h k => ?_⟩
    rw [Body_scalar]; cases b <;> simp [parseItem, next, normShape]
  | uint long n =>
    obtain ⟨rfl, hn, hc⟩ := hs
    have key : ∃ tag bs, (if long then ser64 n 0x20 else serInteger fl env n 0x20) = tag :: bs ∧ tag / 16 = 2 ∧
        ∀ rest h k, parseInteger env tag ⟨bs ++ rest, h, k⟩ = .ok (n, ⟨rest, h, k⟩) := by
      cases long with
      | true => exact ser64_spec env n 0x20 rfl hn
      | false => exact serInteger_spec fl env n 0x20 rfl hn (fun h => hc h rfl)
    obtain ⟨tag, bs, e1, e2, e3⟩ := key
    refine ⟨tag :: bs, by simp only [serShape]; rw [e1], fun f rest h k => ?_⟩
    rw [Body_scalar, parseItem]
    simp only [next, List.cons_append, Res.bind_ok, e2, e3, Res.pure_eq, normShape]
  | int long i =>
    obtain ⟨rfl, h1, h2, hc⟩ := hs
    by_cases hneg : i < 0
    · have key : ∃ tag bs, serInt fl env long i = .ok (tag :: bs) ∧ tag / 16 = 3 ∧
          ∀ rest h k, parseInteger env tag ⟨bs ++ rest, h, k⟩ = .ok (i.natAbs, ⟨rest, h, k⟩) := by
        unfold serInt
        rw [if_neg (by omega), if_pos hneg]
        cases long with
        | true =>
          obtain ⟨tag, bs, e1, e2, e3⟩ := ser64_spec env i.natAbs 0x30 rfl (by omega)
          exact ⟨tag, bs, by simp [e1], e2, e3⟩
        | false =>
          obtain ⟨tag, bs, e1, e2, e3⟩ := serInteger_spec fl env i.natAbs 0x30 rfl (by omega) (fun h => hc h rfl)
          exact ⟨tag, bs, by simp [e1], e2, e3⟩
      obtain ⟨tag, bs, e1, e2, e3⟩ := key
      refine ⟨tag :: bs, by simp only [serShape]; rw [e1], fun f rest h k => ?_⟩
      rw [Body_scalar, parseItem]
      simp only [next, List.cons_append, Res.bind_ok, e2, e3, Res.pure_eq, normShape, negInt]
      rw [if_neg (by omega), if_pos (by omega), if_pos hneg]
      simp only [Res.bind_ok]
      have : -((i.natAbs : Nat) : Int) = i := by omega
      rw [this]
    · have key : ∃ tag bs, serInt fl env long i = .ok (tag :: bs) ∧ tag / 16 = 2 ∧
          ∀ rest h k, parseInteger env tag ⟨bs ++ rest, h, k⟩ = .ok (i.natAbs, ⟨rest, h, k⟩) := by
        unfold serInt
        rw [if_neg (by omega), if_neg hneg]
        cases long with
        | true =>
          obtain ⟨tag, bs, e1, e2, e3⟩ := ser64_spec env i.natAbs 0x20 rfl (by omega)
          exact ⟨tag, bs, by simp [e1], e2, e3⟩
        | false =>
          obtain ⟨tag, bs, e1, e2, e3⟩ := serInteger_spec fl env i.natAbs 0x20 rfl (by omega) (fun h => hc h rfl)
          exact ⟨tag, bs, by simp [e1], e2, e3⟩
      obtain ⟨tag, bs, e1, e2, e3⟩ := key
      refine ⟨tag :: bs, by simp only [serShape]; rw [e1], fun f rest h k => ?_⟩
      rw [Body_scalar, parseItem]
      simp only [next, List.cons_append, Res.bind_ok, e2, e3, Res.pure_eq, normShape]
      rw [if_neg hneg]
      have : i.natAbs = i.toNat := by omega
      rw [this]
  | dbl bits =>
    obtain ⟨rfl, h1⟩ := hs
    refine ⟨_, rfl, fun f rest h k => ?_⟩
    rw [Body_scalar, parseItem]
    simp only [next, List.cons_append, Res.bind_ok]
    have := readN_append' env 8 (le 8 bits) rest h k (le_length 8 bits)
    simp [this, ofLe_le 8 bits (by omega), ofDouble, normShape]
  | str s =>
    obtain ⟨rfl, h1⟩ := hs
    obtain ⟨tag, bs, e1, e2, e3⟩ := serString_text fl env hr s h1 0x40 rfl (by decide)
    refine ⟨tag :: bs, e1, fun f rest h k => ?_⟩
    rw [Body_scalar, parseItem]
    simp only [next, List.cons_append, Res.bind_ok, e2, e3, Res.pure_eq, normShape, Nat.reduceDiv]
  | bin s =>
    obtain ⟨rfl, h0, h1, h2⟩ := hs
    obtain ⟨tag, bs, e1, e2, e3⟩ := serString_bin fl env hr s h1 h2
    refine ⟨tag :: bs, e1, fun f rest h k => ?_⟩
    rw [Body_scalar, parseItem]
    simp only [next, List.cons_append, Res.bind_ok, e2, hr.2.2.2.2, e3, Res.pure_eq, normShape, if_neg h2, if_true]
  | arr =>
    obtain ⟨h1, h2⟩ := hs
    obtain ⟨tag, bs, e1, e2, e3⟩ := serInteger_spec fl env cnt 0x60 rfl (by omega) h2
    refine ⟨tag :: bs, by simp only [serShape]; rw [e1], fun f rest h k => ?_⟩
    rw [parseItem]
    simp only [next, List.cons_append, Res.bind_ok, e2, e3, Nat.reduceDiv, allocArr_ok env hr cnt h1, normShape]
    rfl
  | obj diff =>
    obtain ⟨⟨h1, h2⟩, rfl⟩ := hs
    obtain ⟨tag, bs, e1, e2, e3⟩ := serInteger_spec fl env cnt 0x50 rfl (by omega) h2
    refine ⟨tag :: bs, by simp only [serShape]; rw [e1], fun f rest h k => ?_⟩
    rw [parseItem]
    simp only [next, List.cons_append, Res.bind_ok, e2, e3, Nat.reduceDiv, allocArr_ok env hr cnt h1, normShape]
    rfl

theorem or80 : ∀ c < 128, 0x80 ||| c = 128 + c := by decide +kernel

/-- The key part: the parser ends up with the same key and both sides stay in step. -/
theorem serKey_spec (fl : Flags) (env : Env) (hr : Roomy env) (ss : SS) (hist : List Bytes) (ki : Nat)
    (RK : List Bytes) (hs : Sync fl ss hist ki RK) (hb : RK.length + 257 < 2 ^ 32) (key : Bytes)
    (hk : TextOk fl key) :
    ∃ b ss' hist' RK', serKey fl env ss key = .ok (b, ss') ∧ Sync fl ss' hist' RK'.length RK' ∧
      RK'.length ≤ RK.length + 1 ∧
      ∀ f rest sh kids ps', parseItem env f ⟨rest, hist', RK'.length⟩ = .ok (.node [] sh kids, ps') →
        parseItem env (f + 1) ⟨rest, hist', RK'.length⟩ = .ok (.node [] sh kids, ps') →
        parseItem env (f + 1) ⟨b ++ rest, hist, ki⟩ = .ok (.node key sh kids, ps') := by
  have hki := hs.ki_eq
  subst hki
  unfold serKey
  by_cases h0 : key = []
  · rw [if_pos h0]
    subst h0
    exact ⟨[], ss, hist, RK, rfl, hs, by omega, fun f rest sh kids ps' _ h => h⟩
  rw [if_neg h0]
  obtain ⟨tag, bs, e1, e2, e3⟩ := serString_text fl env hr key hk 0x70 rfl (by decide)
  obtain ⟨hist', g1, g2, g3⟩ := storeKey_ring [] hist RK key (by omega) hs.len hs.ring
  have g1' : ∀ s, storeKey ⟨s, hist, RK.length⟩ key = .ok ⟨s, hist', RK.length + 1⟩ := by
    intro s
    unfold storeKey at g1 ⊢
    simp only at g1 ⊢
    split at g1
    · next h => rw [if_pos h]; simp at g1 ⊢; exact g1
    · next h =>
      rw [if_neg h]
      split at g1
      · next h => rw [if_pos h]; simp at g1 ⊢; exact g1
      · simp at g1
  have explicit : ∀ f rest sh kids ps',
      parseItem env f ⟨rest, hist', RK.length + 1⟩ = .ok (.node [] sh kids, ps') →
      parseItem env (f + 1) ⟨(tag :: bs) ++ rest, hist, RK.length⟩ = .ok (.node key sh kids, ps') := by
    intro f rest sh kids ps' h
    rw [parseItem]
    simp only [next, List.cons_append, Res.bind_ok, e2, e3, Nat.reduceDiv, g1', h]
    rfl
  by_cases hc : fl.compressKeys = true
  · rw [if_pos hc]
    rcases tryCompress_spec fl hc ss hist _ RK hs hb key with ⟨code, t1, t2, t3⟩ | ⟨ss', t1, t2, t3⟩
    · rw [t1]
      refine ⟨[0x80 ||| code], ss, hist, RK, rfl, hs, by omega, fun f rest sh kids ps' h _ => ?_⟩
      rw [parseItem]
      simp only [next, List.cons_append, List.nil_append, Res.bind_ok, or80 code t2, t3]
      have ht : (128 + code) / 16 = 8 ∨ (128 + code) / 16 = 9 ∨ (128 + code) / 16 = 10 ∨ (128 + code) / 16 = 11 ∨
        (128 + code) / 16 = 12 ∨ (128 + code) / 16 = 13 ∨ (128 + code) / 16 = 14 ∨ (128 + code) / 16 = 15 := by omega
      rcases ht with ht | ht | ht | ht | ht | ht | ht | ht <;> simp only [ht, h] <;> rfl
    · rw [t1]
      simp only [e1, Res.bind_ok, Res.pure_eq]
      refine ⟨_, ss', hist', key :: RK, rfl, ⟨rfl, g2, g3, fun _ => ⟨t2, t3⟩⟩, by simp, fun f rest sh kids ps' h _ => ?_⟩
      exact explicit f rest sh kids ps' h
  · rw [if_neg hc]
    simp only [e1, Res.bind_ok, Res.pure_eq]
    refine ⟨_, ss, hist', key :: RK, rfl, ⟨rfl, g2, g3, fun h => absurd h hc⟩, by simp, fun f rest sh kids ps' h _ => ?_⟩
    exact explicit f rest sh kids ps' h

mutual
/-- Recursion depth that suffices to read a value back. -/
def fuelOf : BV → Nat
  | .node _ _ kids => 3 + fuelOfL kids
def fuelOfL : List BV → Nat
  | [] => 1
  | v :: l => 1 + fuelOf v + fuelOfL l
end

mutual
theorem trip (fl : Flags) (env : Env) (hr : Roomy env) (v : BV) (hv : Good fl v) (ss : SS) (hist : List Bytes)
    (RK : List Bytes) (hs : Sync fl ss hist RK.length RK) (hb : RK.length + nodes v + 256 < 2 ^ 32) :
    ∃ b ss' hist' RK', ser fl env ss v = .ok (b, ss') ∧ Sync fl ss' hist' RK'.length RK' ∧
      RK'.length ≤ RK.length + nodes v ∧
      ∀ f rest, fuelOf v ≤ f →
        parseItem env f ⟨b ++ rest, hist, RK.length⟩ = .ok (norm v, ⟨rest, hist', RK'.length⟩) := by
  match v with
  | .node key sh kids =>
    obtain ⟨hk, hsh, hkids⟩ := hv
    simp only [nodes] at hb
    obtain ⟨kb, ss1, hist1, RK1, k1, k2, k3, k4⟩ := serKey_spec fl env hr ss hist _ RK hs (by omega) key hk
    obtain ⟨sb, s1, s2⟩ := serShape_spec fl env hr sh kids.length hsh
    obtain ⟨lb, ss2, hist2, RK2, l1, l2, l3, l4⟩ := tripL fl env hr kids hkids ss1 hist1 RK1 k2 (by omega)
    refine ⟨kb ++ (sb ++ lb), ss2, hist2, RK2, by simp [ser, k1, s1, l1], l2, by simp only [nodes]; omega, ?_⟩
    intro f rest hf
    simp only [fuelOf] at hf
    have body : ∀ g, fuelOfL kids ≤ g + 1 → parseItem env (g + 2) ⟨sb ++ (lb ++ rest), hist1, RK1.length⟩ =
        .ok (.node [] (normShape sh) (normL kids), ⟨rest, hist2, RK2.length⟩) := by
      intro g hg
      rw [s2]
      simp only [Body, l4 (g + 1) rest hg, Res.bind_ok, Res.pure_eq]
    obtain ⟨g, rfl⟩ : ∃ g, f = g + 3 := ⟨f - 3, by omega⟩
    have := k4 (g + 2) (sb ++ (lb ++ rest)) (normShape sh) (normL kids) _ (body g (by omega)) (body (g + 1) (by omega))
    simpa [norm] using this
theorem tripL (fl : Flags) (env : Env) (hr : Roomy env) (l : List BV) (hl : GoodL fl l) (ss : SS) (hist : List Bytes)
    (RK : List Bytes) (hs : Sync fl ss hist RK.length RK) (hb : RK.length + nodesL l + 256 < 2 ^ 32) :
    ∃ b ss' hist' RK', serL fl env ss l = .ok (b, ss') ∧ Sync fl ss' hist' RK'.length RK' ∧
      RK'.length ≤ RK.length + nodesL l ∧
      ∀ f rest, fuelOfL l ≤ f →
        parseItems env f l.length l.length ⟨b ++ rest, hist, RK.length⟩ = .ok (normL l, ⟨rest, hist', RK'.length⟩) := by
  match l with
  | [] =>
    refine ⟨[], ss, hist, RK, rfl, hs, by simp [nodesL], fun f rest hf => ?_⟩
    simp only [fuelOfL] at hf
    obtain ⟨g, rfl⟩ : ∃ g, f = g + 1 := ⟨f - 1, by omega⟩
    simp [parseItems, normL]
  | v :: l =>
    obtain ⟨hv, hl⟩ := hl
    simp only [nodesL] at hb
    obtain ⟨vb, ss1, hist1, RK1, v1, v2, v3, v4⟩ := trip fl env hr v hv ss hist RK hs (by omega)
    obtain ⟨lb, ss2, hist2, RK2, l1, l2, l3, l4⟩ := tripL fl env hr l hl ss1 hist1 RK1 v2 (by omega)
    refine ⟨vb ++ lb, ss2, hist2, RK2, by simp [serL, v1, l1], l2, by simp only [nodesL]; omega, fun f rest hf => ?_⟩
    simp only [fuelOfL] at hf
    obtain ⟨g, rfl⟩ : ∃ g, f = g + 1 := ⟨f - 1, by omega⟩
    simp only [List.length_cons, parseItems, List.append_assoc]
    rw [v4 g _ (by omega)]
    simp only [Res.bind_ok]
    rw [if_neg (by omega), Nat.add_sub_cancel, l4 g rest (by omega)]
    rfl
end

end Imt.BinJson
