import Verif.Props.BinSession
import Verif.Props.BinNum
/-! # Values read from any binary stream, written and read again: C178 -/
namespace Imt.Props
open Imt BinJson

mutual
/-- The value with its objects not marked as diffs. -/
def plainB : BV → BV
  | .node k (.obj _) kids => .node k (.obj false) (plainBL kids)
  | .node k sh kids => .node k sh (plainBL kids)
def plainBL : List BV → List BV
  | [] => []
  | v :: l => plainB v :: plainBL l
end

/-- A node not marked as a diff. -/
def plainShape : Shape → Shape
  | .obj _ => .obj false
  | sh => sh

theorem plainB_node (k : Bytes) (sh : Shape) (kids : List BV) :
    plainB (.node k sh kids) = .node k (plainShape sh) (plainBL kids) := by
  cases sh <;> simp only [plainB, plainShape]

theorem plainBL_length (l : List BV) : (plainBL l).length = l.length := by
  induction l with
  | nil => rfl
  | cons v l ih => rw [plainBL, List.length_cons, List.length_cons, ih]

mutual
/-- No number carries the 64-bit flag, no double is zero. -/
def ShortB : BV → Prop
  | .node _ sh kids => (∀ n, sh ≠ .uint true n) ∧ (∀ i, sh ≠ .int true i) ∧
      (∀ b, sh = .dbl b → b ≠ 0 ∧ b ≠ 2 ^ 63) ∧ ShortBL kids
def ShortBL : List BV → Prop
  | [] => True
  | v :: l => ShortB v ∧ ShortBL l
end

mutual
theorem plainB_nodes (v : BV) : nodes (plainB v) = nodes v := by
  match v with
  | .node k sh kids => rw [plainB_node, nodes, nodes, plainBL_nodes kids]
theorem plainBL_nodes (l : List BV) : nodesL (plainBL l) = nodesL l := by
  match l with
  | [] => rfl
  | v :: l => rw [plainBL, nodesL, nodesL, plainB_nodes v, plainBL_nodes l]
end

theorem normL_length (l : List BV) : (normL l).length = l.length := by
  induction l with
  | nil => rfl
  | cons v l ih => rw [normL, List.length_cons, List.length_cons, ih]

theorem serShape_norm (fl : Flags) (env : Env) (sh : Shape) (cnt : Nat) (h1 : ∀ n, sh ≠ .uint true n)
    (h2 : ∀ i, sh ≠ .int true i) (h3 : ∀ b, sh = .dbl b → b ≠ 0 ∧ b ≠ 2 ^ 63) :
    serShape fl env (normShape (plainShape sh)) cnt = serShape fl env sh cnt ∨
      ∃ i, sh = .int false i ∧ i = -2 ^ 63 := by
  cases sh with
  | uint long n => cases long with
    | true => exact absurd rfl (h1 n)
    | false => exact Or.inl rfl
  | int long i => cases long with
    | true => exact absurd rfl (h2 i)
    | false =>
      left
      by_cases hi : i < 0
      · simp [plainShape, normShape, hi]
      · simp only [plainShape, normShape, hi, if_false, serShape, serInt]
        have hm : ¬ i = -2 ^ 63 := by intro e; rw [e] at hi; exact hi (by decide)
        rw [if_neg hm, if_neg (by simp), if_neg (by simp)]
        congr 2
        omega
  | dbl b => left; simp only [plainShape]; rw [normShape, if_neg (by have := h3 b rfl; omega)]
  | _ => exact Or.inl rfl

mutual
/-- The bytes written do not depend on what `norm` and `plainB` change. -/
theorem serBin_norm (fl : Flags) (env : Env) (v : BV) (h : ShortB v) (ss : SS) :
    ser fl env ss (norm (plainB v)) = ser fl env ss v := by
  match v with
  | .node k sh kids =>
    obtain ⟨h1, h2, hd, h3⟩ := h
    rw [plainB_node, norm, ser, ser, normL_length, plainBL_length]
    have e : serShape fl env (normShape (plainShape sh)) kids.length = serShape fl env sh kids.length := by
      rcases serShape_norm fl env sh kids.length h1 h2 hd with h | ⟨i, rfl, hi⟩
      · exact h
      · subst hi; rfl
    rw [e]
    cases serKey fl env ss k with
    | ok a =>
      simp only [Res.bind_ok]
      cases serShape fl env sh kids.length with
      | ok b => simp only [Res.bind_ok]; rw [serBinL_norm fl env kids h3]
      | _ => rfl
    | _ => rfl
theorem serBinL_norm (fl : Flags) (env : Env) (l : List BV) (h : ShortBL l) (ss : SS) :
    serL fl env ss (normL (plainBL l)) = serL fl env ss l := by
  match l with
  | [] => rfl
  | v :: l =>
    rw [plainBL, normL, serL, serL, serBin_norm fl env v h.1]
    cases ser fl env ss v with
    | ok a => simp only [Res.bind_ok]; rw [serBinL_norm fl env l h.2]
    | _ => rfl
end

mutual
/-- The bytes written do not depend on the mark of a diff. -/
theorem serBin_plain (fl : Flags) (env : Env) (v : BV) (ss : SS) : ser fl env ss (plainB v) = ser fl env ss v := by
  match v with
  | .node k sh kids =>
    have e : serShape fl env (plainShape sh) kids.length = serShape fl env sh kids.length := by cases sh <;> rfl
    rw [plainB_node, ser, ser, plainBL_length, e]
    cases serKey fl env ss k with
    | ok a =>
      simp only [Res.bind_ok]
      cases serShape fl env sh kids.length with
      | ok b => simp only [Res.bind_ok]; rw [serBinL_plain fl env kids]
      | _ => rfl
    | _ => rfl
theorem serBinL_plain (fl : Flags) (env : Env) (l : List BV) (ss : SS) :
    serL fl env ss (plainBL l) = serL fl env ss l := by
  match l with
  | [] => rfl
  | v :: l =>
    rw [plainBL, serL, serL, serBin_plain fl env v]
    cases ser fl env ss v with
    | ok a => simp only [Res.bind_ok]; rw [serBinL_plain fl env l]
    | _ => rfl
end

/-! ## What the reader can produce -/

/-- Bytes were taken from the front, the key history is the same. -/
def Took (ps ps' : PS) : Prop := ps'.s <:+ ps.s ∧ ps'.hist = ps.hist

theorem Took.trans {a b c : PS} (h : Took a b) (h' : Took b c) : Took a c :=
  ⟨h'.1.trans h.1, h'.2.trans h.2⟩

theorem Took.valid {a b : PS} (h : Took a b) (hv : Bytes.Valid a.s) : Bytes.Valid b.s :=
  fun c hc => hv c (h.1.subset hc)

theorem next_took {env : Env} {ps : PS} {r : Nat × PS} (hv : Bytes.Valid ps.s) (h : next env ps = .ok r) :
    r.1 < 256 ∧ Took ps r.2 ∧ (r.1 ≠ 255 → r.2.s.length + 1 = ps.s.length) := by
  obtain ⟨s, hi, ki⟩ := ps
  unfold next at h
  cases s with
  | nil =>
    simp only at h
    split at h
    · cases h
    · cases h; exact ⟨(by decide : 255 < 256), ⟨List.suffix_refl _, rfl⟩, fun h => absurd rfl h⟩
  | cons c s => cases h; exact ⟨hv c (by simp), ⟨List.suffix_cons _ _, rfl⟩, fun _ => rfl⟩

theorem readN_took {env : Env} (n : Nat) {ps : PS} {r : Bytes × PS} (hv : Bytes.Valid ps.s)
    (h : readN env n ps = .ok r) : Bytes.Valid r.1 ∧ r.1.length = n ∧ Took ps r.2 := by
  induction n generalizing ps r with
  | zero => rw [readN] at h; cases h; exact ⟨(by intro b hb; cases hb), rfl, List.suffix_refl _, rfl⟩
  | succ n ih =>
    rw [readN] at h
    obtain ⟨c, h1, h⟩ := bind_inv h
    obtain ⟨d, h2, h⟩ := bind_inv h
    cases h
    obtain ⟨a1, a2, -⟩ := next_took hv h1
    obtain ⟨b1, b2, b3⟩ := ih (a2.valid hv) h2
    refine ⟨?_, by simp [b2], a2.trans b3⟩
    intro b hb
    rcases List.mem_cons.1 hb with rfl | hb
    · exact a1
    · exact b1 b hb

theorem ofLe_lt (b : Bytes) (hv : Bytes.Valid b) : ofLe b < 256 ^ b.length := by
  induction b with
  | nil => simp [ofLe]
  | cons c b ih =>
    have := ih (fun x hx => hv x (List.mem_cons_of_mem _ hx))
    have hc := hv c (by simp)
    rw [ofLe, List.length_cons, Nat.pow_succ]
    omega

theorem parseInteger_took {env : Env} {tag : Nat} {ps : PS} {r : Nat × PS} (hv : Bytes.Valid ps.s)
    (h : parseInteger env tag ps = .ok r) : r.1 < 2 ^ 64 ∧ Took ps r.2 := by
  have go : ∀ k ≤ 8, (do let r ← readN env k ps
                         pure (ofLe r.1, r.2) : Res (Nat × PS)) = .ok r → r.1 < 2 ^ 64 ∧ Took ps r.2 := by
    intro k hk h
    obtain ⟨c, h1, h⟩ := bind_inv h
    cases h
    obtain ⟨b1, b2, b3⟩ := readN_took k hv h1
    refine ⟨?_, b3⟩
    have := ofLe_lt c.1 b1
    rw [b2] at this
    calc ofLe c.1 < 256 ^ k := this
      _ ≤ 256 ^ 8 := Nat.pow_le_pow_right (by decide) hk
      _ = 2 ^ 64 := by decide
  unfold parseInteger at h
  dsimp only at h
  split at h
  · exact go 1 (by decide) h
  · exact go 2 (by decide) h
  · exact go 4 (by decide) h
  · exact go 8 (by decide) h
  · cases h
    exact ⟨by omega, List.suffix_refl _, rfl⟩

/-- No allocation of 2^60 bytes or more succeeds. -/
def Bounded (env : Env) : Prop := ∀ n, env.avail n = true → n < 2 ^ 60

theorem allocStr_bound {env : Env} (hb : Bounded env) {sz : Nat} {u : Unit} (h : allocStr env sz = .ok u) :
    sz < 2 ^ 60 := by
  unfold allocStr at h
  dsimp only at h
  split at h
  · cases h
  · rename_i h1
    split at h
    · cases h
    · rename_i h2
      have := hb _ (by simpa using h1)
      rw [not_or] at h2
      rw [Nat.mod_eq_of_lt (by omega)] at this
      omega

theorem allocArr_bound {env : Env} (hb : Bounded env) {sz n : Nat} (h : allocArr env sz = .ok n) : n < 2 ^ 60 := by
  unfold allocArr at h
  dsimp only at h
  split at h
  · cases h
  · rename_i h1
    split at h
    · cases h
    · have := hb _ (by simpa using h1)
      cases h
      omega

theorem digit_start : ∀ i < 64, Spec.digitUrl i < 128 := by decide +kernel

theorem readToken_took {env : Env} {sz x : Nat} {ps : PS} {r : Bytes × PS} (hs : 0 < sz) (hv : Bytes.Valid ps.s)
    (h : readToken env sz x ps = .ok r) : Bytes.Valid r.1 ∧ StartOk r.1 ∧ r.1.length ≤ sz ∧ Took ps r.2 := by
  unfold readToken at h
  dsimp only at h
  rw [Base64.lookupUrl _ (by omega), Res.bind_ok] at h
  obtain ⟨c, h1, h⟩ := bind_inv h
  obtain ⟨b1, -, b3⟩ := readN_took _ hv h1
  have hbuf : Bytes.Valid (c.1 ++ (List.range (sz - ((sz - 1) * 3 + 3) % 2 ^ 64 / 4)).map
      (fun i => env.junk i % 256)) := by
    intro b hb
    rcases List.mem_append.1 hb with hb | hb
    · exact b1 b hb
    · simp only [List.mem_map] at hb
      obtain ⟨j, _, rfl⟩ := hb
      omega
  rw [Base64.encodeCore_eq Base64.lookupUrl false _ hbuf, Res.bind_ok] at h
  simp only [Bool.false_eq_true, if_false] at h
  cases h
  have hm := Base64.base64_mem Spec.digitUrl _ hbuf
  have h0 := digit_start (x % 64) (by omega)
  refine ⟨?_, ?_, ?_, b3⟩
  · intro b hb
    rcases List.mem_cons.1 hb with rfl | hb
    · omega
    · obtain ⟨i, hi, rfl⟩ := hm b (List.mem_of_mem_take hb)
      have := digit_start i hi
      omega
  · intro b hb
    simp only [List.head?_cons, Option.mem_def, Option.some.injEq] at hb
    omega
  · simp only [List.length_cons, List.length_take]
    omega

theorem parseString_took {env : Env} (hb : Bounded env) {tag : Nat} {enc : Bool} {ps : PS} {r : Bytes × PS}
    (hv : Bytes.Valid ps.s) (h : parseString env tag enc ps = .ok r) :
    Bytes.Valid r.1 ∧ r.1.length < 2 ^ 60 ∧ (enc = false → StartOk r.1) ∧ Took ps r.2 := by
  unfold parseString at h
  obtain ⟨n, h1, h⟩ := bind_inv h
  obtain ⟨-, t1⟩ := parseInteger_took hv h1
  dsimp only at h
  have hv1 := t1.valid hv
  split at h
  · cases h
    exact ⟨(by intro b hb; cases hb), by simp, fun _ => (by intro c hc; cases hc), t1⟩
  · rename_i hz
    split at h
    · obtain ⟨x, h2, h⟩ := bind_inv h
      obtain ⟨x1, t2, -⟩ := next_took hv1 h2
      have hv2 := t2.valid hv1
      obtain ⟨u, h3, h⟩ := bind_inv h
      have hsz := allocStr_bound hb h3
      split at h
      · obtain ⟨a1, a2, a3, a4⟩ := readToken_took (by omega) hv2 h
        exact ⟨a1, by omega, fun _ => a2, t1.trans (t2.trans a4)⟩
      · rename_i hx
        obtain ⟨d, h4, h⟩ := bind_inv h
        obtain ⟨a1, a2, a3⟩ := readN_took _ hv2 h4
        cases h
        refine ⟨?_, by simp only [List.length_cons]; omega, fun _ => ?_, t1.trans (t2.trans a3)⟩
        · intro b hb
          rcases List.mem_cons.1 hb with rfl | hb
          · exact x1
          · exact a1 b hb
        · intro b hb
          simp only [List.head?_cons, Option.mem_def, Option.some.injEq] at hb
          omega
    · rename_i he
      obtain ⟨u, h3, h⟩ := bind_inv h
      have hsz := allocStr_bound hb h3
      obtain ⟨a1, a2, a3⟩ := readN_took _ hv1 h
      exact ⟨a1, by omega, fun h => absurd h he, t1.trans a3⟩

/-- The unread bytes are bytes, the remembered keys can be written. -/
def Fine (fl : Flags) (ps : PS) : Prop := Bytes.Valid ps.s ∧ ∀ k ∈ ps.hist, TextOk fl k

theorem Fine.took {fl : Flags} {a b : PS} (h : Fine fl a) (t : Took a b) : Fine fl b :=
  ⟨t.valid h.1, fun k hk => h.2 k (t.2 ▸ hk)⟩

theorem storeKey_fine {fl : Flags} {ps ps' : PS} {k : Bytes} (h : Fine fl ps) (hk : TextOk fl k)
    (e : storeKey ps k = .ok ps') : Fine fl ps' ∧ ps'.s = ps.s := by
  unfold storeKey at e
  dsimp only at e
  split at e
  · cases e
    refine ⟨⟨h.1, fun a ha => ?_⟩, rfl⟩
    rcases List.mem_append.1 ha with ha | ha
    · exact h.2 a ha
    · rw [List.mem_singleton.1 ha]; exact hk
  · split at e
    · cases e
      refine ⟨⟨h.1, fun a ha => ?_⟩, rfl⟩
      rcases List.mem_or_eq_of_mem_set ha with ha | rfl
      · exact h.2 a ha
      · exact hk
    · cases e

theorem histKey_fine {fl : Flags} {ps : PS} (h : Fine fl ps) (tag : Nat) : TextOk fl (histKey ps tag) := by
  unfold histKey
  generalize (ps.ki + (2 ^ 32 - 1) + (2 ^ 32 - tag)) % 2 ^ 32 % 128 = i
  rw [List.getD_eq_getElem?_getD]
  cases hi : ps.hist[i]? with
  | none =>
    exact ⟨(by intro b hb; cases hb), (by intro b hb; cases hb), by decide, fun _ => by decide⟩
  | some k => exact h.2 k (List.mem_of_getElem? hi)

theorem nil_textOk (fl : Flags) : TextOk fl [] :=
  ⟨(by intro b hb; cases hb), (by intro b hb; cases hb), by decide, fun _ => by decide⟩

theorem fits_of {fl : Flags} (hc : fl.compat32 = false) {n : Nat} (h : n < 2 ^ 60) : Fits fl n :=
  ⟨h, fun e => by rw [hc] at e; cases e⟩

/-- What is known of a value read. -/
def Read (fl : Flags) (v : BV) : Prop := Good fl (plainB v) ∧ ShortB v

def ReadL (fl : Flags) (l : List BV) : Prop := GoodL fl (plainBL l) ∧ ShortBL l

theorem read_leaf {fl : Flags} {sh : Shape} (h : ShapeOk fl (plainShape sh) 0) (h1 : ∀ n, sh ≠ .uint true n)
    (h2 : ∀ i, sh ≠ .int true i) (h3 : ∀ b, sh = .dbl b → b ≠ 0 ∧ b ≠ 2 ^ 63 := by simp) :
    Read fl (.node [] sh []) := by
  refine ⟨?_, h1, h2, h3, trivial⟩
  rw [plainB_node]
  exact ⟨nil_textOk fl, h, trivial⟩

theorem read_key {fl : Flags} {k : Bytes} {v : BV} (h : Read fl v) (hk : TextOk fl k) : Read fl (v.withKey k) := by
  obtain ⟨k0, sh, kids⟩ := v
  obtain ⟨h1, h2⟩ := h
  rw [plainB_node] at h1
  refine ⟨?_, h2⟩
  rw [BV.withKey, plainB_node]
  exact ⟨hk, h1.2⟩

theorem nodes_withKey (k : Bytes) (v : BV) : nodes (v.withKey k) = nodes v := by
  obtain ⟨k0, sh, kids⟩ := v; rfl

theorem read_dbl {fl : Flags} {bits : Nat} (h : bits < 2 ^ 64) : Read fl (.node [] (ofDouble bits) []) := by
  unfold ofDouble
  split
  · exact read_leaf ⟨rfl, by decide, fun _ _ => by decide⟩ (by simp) (by simp)
  · rename_i hb
    rw [not_or] at hb
    exact read_leaf ⟨rfl, h⟩ (by simp) (by simp) (by intro b e; cases e; exact hb)

theorem read_neg {fl : Flags} (hc : fl.compat32 = false) {n : Nat} (hn : n < 2 ^ 64) {sh : Shape} (h : negInt n = .ok sh) :
    Read fl (.node [] sh []) := by
  unfold negInt at h
  have hc' : ∀ {p : Prop}, fl.compat32 = true → p := fun e => by rw [hc] at e; cases e
  split at h
  · cases h
    exact read_leaf ⟨rfl, by decide, fun _ _ => by decide⟩ (by simp) (by simp)
  · split at h
    · cases h
      exact read_leaf ⟨rfl, by omega, by omega, fun e => hc' e⟩ (by simp) (by simp)
    · split at h
      · cases h
      · cases h
        exact read_leaf ⟨rfl, by omega, by omega, fun e => hc' e⟩ (by simp) (by simp)

theorem widen_lt (f : Nat) (hf : f < 2 ^ 32) : widen f < 2 ^ 64 := by
  unfold widen
  dsimp only
  have hs : f / 2 ^ 31 ≤ 1 := by omega
  have he : f / 2 ^ 23 % 256 < 256 := by omega
  have hm : f % 2 ^ 23 < 2 ^ 23 := by omega
  generalize f / 2 ^ 31 = s at *
  generalize f / 2 ^ 23 % 256 = e at *
  generalize f % 2 ^ 23 = m at *
  split
  · split <;> omega
  · split
    · split
      · omega
      · rename_i h0
        have hl : Nat.log2 m < 23 := (Nat.log2_lt h0).2 hm
        have h1 : m < 2 ^ (Nat.log2 m + 1) := Nat.lt_log2_self
        have h2 : (m - 2 ^ Nat.log2 m) * 2 ^ (52 - Nat.log2 m) < 2 ^ 52 := by
          have : m - 2 ^ Nat.log2 m < 2 ^ Nat.log2 m := by
            have := Nat.log2_self_le h0
            rw [Nat.pow_succ] at h1
            omega
          calc (m - 2 ^ Nat.log2 m) * 2 ^ (52 - Nat.log2 m) < 2 ^ Nat.log2 m * 2 ^ (52 - Nat.log2 m) :=
                Nat.mul_lt_mul_of_pos_right this (Nat.two_pow_pos _)
            _ = 2 ^ 52 := by rw [← Nat.pow_add]; congr 1; omega
        generalize (m - 2 ^ Nat.log2 m) * 2 ^ (52 - Nat.log2 m) = q at *
        omega
    · omega

theorem read_step (env : Env) (hb : Bounded env) (fl : Flags) (hc : fl.compat32 = false) (f : Nat) :
    (∀ ps r, Fine fl ps → parseItem env f ps = .ok r →
      Read fl r.1 ∧ Fine fl r.2 ∧ nodes r.1 + r.2.s.length ≤ ps.s.length) ∧
    (∀ n slots ps r, Fine fl ps → parseItems env f n slots ps = .ok r →
      ReadL fl r.1 ∧ r.1.length ≤ slots ∧ Fine fl r.2 ∧ nodesL r.1 + r.2.s.length ≤ ps.s.length) := by
  induction f with
  | zero =>
    refine ⟨fun ps r _ h => ?_, fun n slots ps r _ h => ?_⟩
    · rw [parseItem] at h; cases h
    · rw [parseItems] at h; cases h
  | succ f ih =>
    obtain ⟨ih1, ih2⟩ := ih
    refine ⟨fun ps r hf h => ?_, fun n slots ps r hf h => ?_⟩
    · rw [parseItem] at h
      obtain ⟨t, h1, h⟩ := bind_inv h
      obtain ⟨t1, t2, t3⟩ := next_took hf.1 h1
      have hf1 := hf.took t2
      have hle := t2.1.length_le
      dsimp only at h
      have cont : ∀ (d : Bool) (sh : Shape), (sh = .arr ∨ sh = .obj d) → ∀ (tag : Nat) (p : PS), Fine fl p →
          p.s.length + 1 ≤ ps.s.length → ∀ r, (do
            let n ← parseInteger env tag p
            let slots ← allocArr env n.1
            let r ← parseItems env f n.1 slots n.2
            pure (BV.node [] sh r.1, r.2) : Res (BV × PS)) = .ok r →
          Read fl r.1 ∧ Fine fl r.2 ∧ nodes r.1 + r.2.s.length ≤ ps.s.length := by
        intro d sh hsh tag p hp hl r h
        obtain ⟨n, a1, h⟩ := bind_inv h
        obtain ⟨slots, a2, h⟩ := bind_inv h
        obtain ⟨l, a3, h⟩ := bind_inv h
        cases h
        obtain ⟨-, b1⟩ := parseInteger_took hp.1 a1
        have b2 := allocArr_bound hb a2
        obtain ⟨c1, c2, c3, c4⟩ := ih2 _ _ _ _ (hp.took b1) a3
        have b3 := b1.1.length_le
        refine ⟨⟨?_, ?_, ?_, ?_, c1.2⟩, c3, by simp only [nodes]; omega⟩
        · rw [plainB_node]
          refine ⟨nil_textOk fl, ?_, c1.1⟩
          rw [plainBL_length]
          rcases hsh with rfl | rfl
          · exact fits_of hc (by omega)
          · exact ⟨fits_of hc (by omega), rfl⟩
        · rcases hsh with rfl | rfl <;> simp
        · rcases hsh with rfl | rfl <;> simp
        · rcases hsh with rfl | rfl <;> simp
      split at h
      · rename_i htag
        have hcons := t3 (by omega)
        split at h
        · cases h
          exact ⟨read_leaf rfl (by simp) (by simp), hf1, by simp only [nodes, nodesL]; omega⟩
        split at h
        · cases h
          exact ⟨read_leaf rfl (by simp) (by simp), hf1, by simp only [nodes, nodesL]; omega⟩
        split at h
        · cases h
          exact ⟨read_leaf rfl (by simp) (by simp), hf1, by simp only [nodes, nodesL]; omega⟩
        split at h
        · cases h
          exact ⟨read_leaf rfl (by simp) (by simp), hf1, by simp only [nodes, nodesL]; omega⟩
        split at h
        · obtain ⟨d, a1, h⟩ := bind_inv h
          cases h
          obtain ⟨b1, b2, b3⟩ := readN_took _ hf1.1 a1
          have := ofLe_lt d.1 b1
          rw [b2] at this
          have b4 := b3.1.length_le
          exact ⟨read_dbl (by omega), hf1.took b3, by simp only [nodes, nodesL]; omega⟩
        split at h
        · obtain ⟨d, a1, h⟩ := bind_inv h
          cases h
          obtain ⟨b1, b2, b3⟩ := readN_took _ hf1.1 a1
          have := ofLe_lt d.1 b1
          rw [b2] at this
          have b4 := b3.1.length_le
          exact ⟨read_dbl (widen_lt _ (by omega)), hf1.took b3, by simp only [nodes, nodesL]; omega⟩
        split at h
        · obtain ⟨o, a1, h⟩ := bind_inv h
          obtain ⟨-, o2, -⟩ := next_took hf1.1 a1
          have o3 := o2.1.length_le
          split at h
          · exact cont true _ (Or.inr rfl) _ _ (hf1.took o2) (by omega) _ h
          · cases h
        · cases h
      · exact cont true _ (Or.inl rfl) _ _ hf1 (by have := t3 (by omega); omega) _ h
      · exact cont false _ (Or.inr rfl) _ _ hf1 (by have := t3 (by omega); omega) _ h
      · have hcons := t3 (by omega)
        obtain ⟨d, a1, h⟩ := bind_inv h
        cases h
        obtain ⟨b1, b2, b3, b4⟩ := parseString_took hb hf1.1 a1
        have b5 := b4.1.length_le
        exact ⟨read_leaf ⟨rfl, b1, b3 rfl, fits_of hc b2⟩ (by simp) (by simp), hf1.took b4,
          by simp only [nodes, nodesL]; omega⟩
      · have hcons := t3 (by omega)
        obtain ⟨d, a1, h⟩ := bind_inv h
        cases h
        obtain ⟨b1, b2, b3, b4⟩ := parseString_took hb hf1.1 a1
        have b5 := b4.1.length_le
        refine ⟨?_, hf1.took b4, by simp only [nodes, nodesL]; omega⟩
        dsimp only
        split
        · exact read_leaf ⟨rfl, nil_textOk fl⟩ (by simp) (by simp)
        · rename_i hne
          split
          · exact read_leaf ⟨rfl, b1, fits_of hc b2, hne⟩ (by simp) (by simp)
          · rename_i he
            exact read_leaf ⟨rfl, b1, b3 (by simpa using he), fits_of hc b2⟩ (by simp) (by simp)
      · have hcons := t3 (by omega)
        obtain ⟨d, a1, h⟩ := bind_inv h
        cases h
        obtain ⟨b1, b4⟩ := parseInteger_took hf1.1 a1
        have b5 := b4.1.length_le
        exact ⟨read_leaf ⟨rfl, b1, fun e => by rw [hc] at e; cases e⟩ (by simp) (by simp), hf1.took b4,
          by simp only [nodes, nodesL]; omega⟩
      · have hcons := t3 (by omega)
        obtain ⟨d, a1, h⟩ := bind_inv h
        obtain ⟨sh, a2, h⟩ := bind_inv h
        cases h
        obtain ⟨b1, b4⟩ := parseInteger_took hf1.1 a1
        have b5 := b4.1.length_le
        exact ⟨read_neg hc b1 a2, hf1.took b4, by simp only [nodes, nodesL]; omega⟩
      · obtain ⟨k, a1, h⟩ := bind_inv h
        obtain ⟨p, a2, h⟩ := bind_inv h
        obtain ⟨v, a3, h⟩ := bind_inv h
        cases h
        obtain ⟨b1, b2, b3, b4⟩ := parseString_took hb hf1.1 a1
        have hk : TextOk fl k.1 := ⟨b1, b3 rfl, fits_of hc b2⟩
        obtain ⟨c1, c2⟩ := storeKey_fine (hf1.took b4) hk a2
        obtain ⟨d1, d2, d3⟩ := ih1 _ _ c1 a3
        have b5 := b4.1.length_le
        rw [c2] at d3
        exact ⟨read_key d1 hk, d2, by rw [nodes_withKey]; dsimp only; omega⟩
      · obtain ⟨v, a3, h⟩ := bind_inv h
        cases h
        obtain ⟨d1, d2, d3⟩ := ih1 _ _ hf1 a3
        exact ⟨read_key d1 (histKey_fine hf1 _), d2, by rw [nodes_withKey]; dsimp only; omega⟩
    · cases n with
      | zero =>
        rw [parseItems] at h
        cases h
        exact ⟨⟨trivial, trivial⟩, by simp, hf, by simp [nodesL]⟩
      | succ n =>
        rw [parseItems] at h
        obtain ⟨v, a1, h⟩ := bind_inv h
        obtain ⟨d1, d2, d3⟩ := ih1 _ _ hf a1
        split at h
        · cases h
        · obtain ⟨l, a2, h⟩ := bind_inv h
          cases h
          obtain ⟨c1, c2, c3, c4⟩ := ih2 _ _ _ _ d2 a2
          exact ⟨⟨⟨d1.1, c1.1⟩, d1.2, c1.2⟩, by simp only [List.length_cons]; omega, c3,
            by simp only [nodesL]; omega⟩

/-! ## C178 -/

/-- C178. Whatever stream of fewer than 2^32-256 bytes a value was read from, also one no serializer wrote: the value
can be written, with or without compressed keys and texts, and reading that, whatever follows it, gives the same value
and takes exactly the bytes written. Only two things change: an object marked as a diff is read as an ordinary one, and
a positive number kept as signed is read as unsigned (a stream can make one, see C160). Writing what was read gives the same bytes again. -/
theorem C178_again (src : Env) (hb : Bounded src) (s : Bytes) (hs : Bytes.Valid s) (hl : s.length + 256 < 2 ^ 32)
    (f0 : Nat) (v : BV) (ps : PS) (h : parseBinary src f0 s = .ok (v, ps)) (fl : Flags) (hc : fl.compat32 = false)
    (env : Env) (hr : Roomy env) :
    ∃ b, serializeBinary fl env v = .ok b ∧
      (∃ F, ∀ f ≥ F, ∀ rest, ∃ hist ki, parseBinary env f (b ++ rest) = .ok (norm (plainB v), ⟨rest, hist, ki⟩)) ∧
      serializeBinary fl env (norm (plainB v)) = .ok b := by
  obtain ⟨⟨h1, h2⟩, -, h4⟩ := (read_step src hb fl hc f0).1 ⟨s, [], 0⟩ (v, ps)
    ⟨hs, fun k hk => absurd hk List.not_mem_nil⟩ h
  dsimp only at h1 h2 h4
  have hn : nodes (plainB v) + 256 < 2 ^ 32 := by rw [plainB_nodes]; omega
  obtain ⟨b, b1, b2⟩ := C18_round_trip_partial fl env hr (plainB v) h1 hn
  have e := serBin_norm fl env v h2 SS.init
  have e' : serializeBinary fl env (norm (plainB v)) = serializeBinary fl env v := by
    unfold serializeBinary; rw [e]
  have e2 : serializeBinary fl env (plainB v) = serializeBinary fl env v := by
    unfold serializeBinary; rw [serBin_plain]
  rw [e2] at b1
  exact ⟨b, b1, b2, by rw [e', b1]⟩

/-- An ordinary source: allocations of less than 2^40 bytes succeed. -/
def srcEnv : Env := { f64 := fun _ => 0x4270000000000000 }

/-- `{"b": diff{}, "a": -1, "b": 1}` with members out of order, the last key a reference to the first, the last number
written as the negative of 2^64-1. -/
def oddStream : Bytes :=
  [0x53, 0x71, 0x62, 0x0F, 0x50, 0x71, 0x61, 0x31, 0x81, 0x3D, 255, 255, 255, 255, 255, 255, 255, 255]

def oddValue : BV :=
  .node [] (.obj false) [.node (ascii "b") (.obj true) [], .node (ascii "a") (.int false (-1)) [],
    .node (ascii "b") (.int false 1) []]

theorem odd_read : parseBinary srcEnv 10 oddStream = .ok (oddValue, ⟨[], [ascii "b", ascii "a"], 2⟩) := by rfl

example : Bounded srcEnv ∧ Bytes.Valid oddStream ∧ oddStream.length + 256 < 2 ^ 32 ∧
    (⟨true, true, false⟩ : Flags).compat32 = false ∧ Roomy env0 := by
  refine ⟨fun n hn => ?_, by decide, by decide, rfl, env0_roomy⟩
  have : n < 2 ^ 40 := by simpa [srcEnv] using hn
  omega

example : norm (plainB oddValue) =
    .node [] (.obj false) [.node (ascii "b") (.obj false) [], .node (ascii "a") (.int false (-1)) [],
      .node (ascii "b") (.uint false 1) []] := by rfl

/-- C178 for values without diffs and without positive numbers kept as signed: the very same value is read again. -/
theorem C178_same (src : Env) (hb : Bounded src) (s : Bytes) (hs : Bytes.Valid s) (hl : s.length + 256 < 2 ^ 32)
    (f0 : Nat) (v : BV) (ps : PS) (h : parseBinary src f0 s = .ok (v, ps)) (hp : plainB v = v) (hv : Canonical v)
    (fl : Flags) (hc : fl.compat32 = false) (env : Env) (hr : Roomy env) :
    ∃ b, serializeBinary fl env v = .ok b ∧
      ∃ F, ∀ f ≥ F, ∀ rest, ∃ hist ki, parseBinary env f (b ++ rest) = .ok (v, ⟨rest, hist, ki⟩) := by
  obtain ⟨b, h1, h2, -⟩ := C178_again src hb s hs hl f0 v ps h fl hc env hr
  rw [hp, norm_canonical v hv] at h2
  exact ⟨b, h1, h2⟩

/-- `["x", 300]`. -/
example : ∃ v ps, parseBinary srcEnv 10 [0x62, 0x41, 0x78, 0x2B, 0x2C, 0x01] = .ok (v, ps) ∧ plainB v = v ∧
    Canonical v :=
  ⟨.node [] .arr [.node [] (.str (ascii "x")) [], .node [] (.uint false 300) []], ⟨[], [], 0⟩, by rfl, by rfl,
    by simp [Canonical, CanonicalL]⟩

/-- Why `maintain32BitComp` is excluded: 2^40, read from a stream, is then written as a double and read as one. -/
theorem C178_needs_wide :
    parseBinary srcEnv 2 [0x2D, 0, 0, 0, 0, 0, 1, 0, 0] = .ok (.node [] (.uint false (2 ^ 40)) [], ⟨[], [], 0⟩) ∧
    tripOf ⟨false, false, true⟩ (.node [] (.uint false (2 ^ 40)) []) = .ok (0, .dbl 0x4200000000000000) := by
  constructor
  · rfl
  · decide +kernel

end Imt.Props
