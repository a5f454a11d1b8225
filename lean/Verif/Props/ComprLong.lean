import Verif.Props.ComprReset
/-!
# A text long enough to fill the dictionary: C92, C123

The text is `a` repeated. The codes of the compressor form a chain, the dictionary is full after maxCode-101 of them.
-/
namespace Imt.Props
open Imt Imt.Compr

/-- The codes of `a`, `aa`, `aaa`, ... -/
def anode : Nat → Nat
  | 0 => 71
  | j + 1 => 102 + j

/-- The dictionary with `m` of them. -/
def achain (m : Nat) : List ((Nat × Nat) × Nat) := (List.range m).map fun j => ((anode j, 71), anode (j + 1))

/-- What has been written when there are `m`. -/
def aout (m : Nat) : Bytes := (List.range m).flatMap fun j => wr (anode j)

theorem anode_inj {i j : Nat} (h : anode i = anode j) : i = j := by
  cases i <;> cases j <;> simp only [anode] at h <;> omega

theorem achain_find (m j : Nat) : ((achain m).find? (fun e => e.1 == (anode j, 71))).map (·.2) =
    if j < m then some (anode (j + 1)) else none := by
  induction m with
  | zero => rfl
  | succ m ih =>
    unfold achain at ih ⊢
    rw [List.range_succ, List.map_append, List.find?_append, Option.map_or, ih]
    by_cases h : j < m
    · rw [if_pos h, if_pos (by omega)]; rfl
    · rw [if_neg h, Option.none_or]
      by_cases h2 : j = m
      · subst h2
        rw [if_pos (by omega)]
        simp
      · rw [if_neg (by omega)]
        have : ¬ (anode m = anode j) := fun h => h2 (anode_inj h).symm
        simp [this]

/-- The compressor inside the text of `a`: `m` codes, the sequence read so far is that of node `j`. -/
structure ARun (p : Bytes) (N : SeqDB) (m j : Nat) (c : Comp) : Prop where
  db : bare c.db = achain m
  next : c.nextCode = 102 + m
  seq : c.lastSeq = some (anode j)
  le : j ≤ m
  len : c.utf8len = 0
  opt : OptOk c
  out : c.out = p ++ aout m
  ndb : ∃ t, c.ndb = N ++ t ∧ ∀ e ∈ t, e.1.2 = 71 ∧ e.2.used = false

theorem addCode_ndb {c c' : Comp} {q : Nat} (h : addCode c (q, 71) = .ok c') :
    ∃ t, c'.ndb = c.ndb ++ t ∧ ∀ e ∈ t, e.1.2 = 71 ∧ e.2.used = false := by
  unfold addCode at h
  split at h
  · cases hl : c.lastNew with
    | none => rw [hl] at h; cases h
    | some n =>
      rw [hl] at h
      cases h
      show ∃ t, cinsert c.ndb (n, 71) { next := c.nnext } = _ ∧ _
      unfold cinsert
      split
      · exact ⟨[], (List.append_nil _).symm, fun e he => by cases he⟩
      · exact ⟨_, rfl, fun e he => by rw [List.mem_singleton.1 he]; exact ⟨rfl, rfl⟩⟩
  · cases h
    exact ⟨[], (List.append_nil _).symm, fun e he => by cases he⟩

theorem advance_ndb {c c' : Comp} {q : Nat} {i : Info} (h : advance c (q, 71) i = .ok c') :
    ∃ t, c'.ndb = c.ndb ++ t ∧ ∀ e ∈ t, e.1.2 = 71 ∧ e.2.used = false := by
  unfold advance at h
  split at h
  · cases h
    exact ⟨[], (List.append_nil _).symm, fun e he => by cases he⟩
  · cases ha : addCode c (q, 71) with
    | ok c1 =>
      rw [ha] at h
      cases h
      exact (addCode_ndb ha : ∃ t, c1.ndb = c.ndb ++ t ∧ ∀ e ∈ t, e.1.2 = 71 ∧ e.2.used = false)
    | err => rw [ha] at h; cases h
    | ub => rw [ha] at h; cases h
    | abort => rw [ha] at h; cases h
    | fuel => rw [ha] at h; cases h

theorem arun_find {p : Bytes} {N : SeqDB} {m j : Nat} {c : Comp} (h : ARun p N m j c) :
    (cfind c.db (anode j, 71)).map (·.next) = if j < m then some (anode (j + 1)) else none := by
  rw [find_bare, h.db, achain_find]

/-- One `a` more, inside the chain. -/
theorem arun_in {p : Bytes} {N : SeqDB} {m j : Nat} {c : Comp} (h : ARun p N m j c) (hj : j < m)
    (hm : anode (j + 1) < maxCode) : ∃ c', compressSym c 71 = .ok c' ∧ ARun p N m (j + 1) c' := by
  have hf := arun_find h
  rw [if_pos hj] at hf
  obtain ⟨i, h1, h2⟩ := Option.map_eq_some_iff.1 hf
  obtain ⟨c', a1, a2, a3, a4, a5, a6, a7⟩ := advance_opt c h.opt (anode j) 71 h.seq i h1
  refine ⟨c', ?_, ⟨by rw [a2, h.db], by rw [a4, h.next], by rw [a3, h2], hj, by rw [a5, h.len], a7, by rw [a6, h.out], ?_⟩⟩
  · unfold compressSym
    rw [if_neg (by decide), h.seq]
    dsimp only
    rw [h1]
    dsimp only
    rw [if_neg (by rw [h2]; exact Nat.not_le.2 hm), a1]
  · obtain ⟨t, t1, t2⟩ := h.ndb
    obtain ⟨u, u1, u2⟩ := advance_ndb a1
    refine ⟨t ++ u, by rw [u1, t1, List.append_assoc], fun e he => ?_⟩
    rcases List.mem_append.1 he with he | he
    · exact t2 e he
    · exact u2 e he

/-- One `a` more, at the end of the chain. -/
theorem arun_end {p : Bytes} {N : SeqDB} {m : Nat} {c : Comp} (h : ARun p N m m c) :
    ∃ c', compressSym c 71 = .ok c' ∧ ARun p N (m + 1) 0 c' := by
  have hf := arun_find h
  rw [if_neg (Nat.lt_irrefl m)] at hf
  have h1 := Option.map_eq_none_iff.1 hf
  refine ⟨{ c.write (anode m) with
      db := cinsert c.db (anode m, 71) { next := c.nextCode }
      nextCode := c.nextCode + 1
      lastSeq := some 71
      lastNew := some 71 }, ?_, ⟨?_, ?_, rfl, Nat.zero_le _, h.len, ⟨?_, fun _ _ hn => by cases hn⟩, ?_, h.ndb⟩⟩
  · unfold compressSym
    rw [if_neg (by decide), h.seq]
    dsimp only
    rw [h1]
    rfl
  · show bare (cinsert c.db (anode m, 71) { next := c.nextCode }) = _
    rw [bare_insert _ _ _ h1]
    have hd : c.db.map (fun e => (e.1, e.2.next)) = (List.range m).map fun j => ((anode j, 71), anode (j + 1)) := h.db
    unfold bare achain
    rw [List.map_append, List.range_succ, List.map_append, hd, h.next]
    rfl
  · show c.nextCode + 1 = _
    rw [h.next]; omega
  · show ∀ e ∈ cinsert c.db (anode m, 71) { next := c.nextCode }, _
    rw [bare_insert _ _ _ h1]
    intro e he
    rcases List.mem_append.1 he with he | he
    · exact h.opt.used e he
    · rw [List.mem_singleton.1 he]; intro hu; cases hu
  · show c.out ++ wr (anode m) = _
    rw [h.out, List.append_assoc]
    unfold aout
    rw [List.range_succ, List.flatMap_append]
    simp

/-- The dictionary is replaced. -/
theorem arun_full {p : Bytes} {N : SeqDB} {m j : Nat} {c : Comp} (h : ARun p N m j c) (hj : j < m)
    (hm : maxCode ≤ anode (j + 1)) : ∃ t, (∀ e ∈ t, e.1.2 = 71 ∧ e.2.used = false) ∧ ∃ n, compressSym c 71 =
      .ok { db := N ++ t, nextCode := n, lastSeq := some 71, lastNew := some 71, ndb := [], nnext := firstCode,
            utf8len := 0, out := p ++ (aout m ++ (wr (anode j) ++ wr optimizeCode)) } := by
  have hf := arun_find h
  rw [if_pos hj] at hf
  obtain ⟨i, h1, h2⟩ := Option.map_eq_some_iff.1 hf
  obtain ⟨t, t1, t2⟩ := h.ndb
  refine ⟨t, t2, c.nnext, ?_⟩
  unfold compressSym
  rw [if_neg (by decide), h.seq]
  dsimp only
  rw [h1]
  dsimp only
  rw [if_pos (by rw [h2]; exact hm)]
  obtain ⟨db, nc, ls, ln, ndb, nn, u, o⟩ := c
  have e1 : u = 0 := h.len
  have e2 : o = p ++ aout m := h.out
  have e3 : ndb = N ++ t := t1
  subst e1 e2 e3
  show Res.ok _ = Res.ok _
  simp only [Comp.write, List.append_assoc]

/-- `n` times `a`. -/
def as (n : Nat) : Bytes := List.replicate n 97

theorem put_a {c : Comp} (h : c.utf8len = 0) : put c 97 = compressSym c 71 := by
  unfold put
  rw [if_neg (by rw [h]; simp)]
  rfl

theorem putAll_append (a b : Bytes) (c c1 : Comp) (h : putAll c a = .ok c1) : putAll c (a ++ b) = putAll c1 b := by
  induction a generalizing c with
  | nil => cases h; rfl
  | cons x a ih =>
    rw [List.cons_append, putAll]
    rw [putAll] at h
    cases hx : put c x with
    | ok c2 => rw [hx] at h; exact ih c2 h
    | err => rw [hx] at h; cases h
    | ub => rw [hx] at h; cases h
    | abort => rw [hx] at h; cases h
    | fuel => rw [hx] at h; cases h

theorem put_one {c c' : Comp} (h : c.utf8len = 0) (h1 : compressSym c 71 = .ok c') : putAll c (as 1) = .ok c' := by
  show (put c 97 >>= fun s => putAll s []) = _
  rw [put_a h, h1]
  rfl

theorem as_add (n k : Nat) : as (n + k) = as n ++ as k := List.replicate_add ..

/-- Along the chain. -/
theorem arun_walk {p : Bytes} {N : SeqDB} {m : Nat} (k : Nat) : ∀ {j : Nat} {c : Comp}, ARun p N m j c → j + k ≤ m →
    anode (j + k) < maxCode → ∃ c', putAll c (as k) = .ok c' ∧ ARun p N m (j + k) c' := by
  induction k with
  | zero => exact fun h _ _ => ⟨_, rfl, h⟩
  | succ k ih =>
    intro j c h hk hm
    have hmono : anode (j + 1) < maxCode := by
      have : anode (j + 1) = 102 + j := rfl
      have : anode (j + (k + 1)) = 102 + (j + k) := rfl
      omega
    obtain ⟨c1, h1, h2⟩ := arun_in h (by omega) hmono
    have e : j + (k + 1) = j + 1 + k := by omega
    obtain ⟨c2, h3, h4⟩ := ih h2 (by omega) (by rw [← e]; exact hm)
    refine ⟨c2, ?_, by rw [e]; exact h4⟩
    show (put c 97 >>= fun s => putAll s (as k)) = _
    rw [put_a h.len, h1]
    exact h3

/-- The length of the text that adds `k` codes to `m` codes. -/
def growLen (m : Nat) : Nat → Nat
  | 0 => 0
  | k + 1 => m + (growLen (m + 1) k + 1)

/-- From any place up to the full chain. -/
theorem arun_grow {p : Bytes} {N : SeqDB} (k : Nat) : ∀ {m : Nat} {c : Comp}, ARun p N m 0 c →
    102 + (m + k) ≤ maxCode + 1 → ∃ c', putAll c (as (growLen m k)) = .ok c' ∧ ARun p N (m + k) 0 c' := by
  induction k with
  | zero => exact fun h _ => ⟨_, rfl, h⟩
  | succ k ih =>
    intro m c h hk
    obtain ⟨c1, h1, h2⟩ := arun_walk m h (by omega) (by
      cases m with
      | zero => decide
      | succ m =>
        have : anode (0 + (m + 1)) = 102 + m := by rw [Nat.zero_add]; rfl
        omega)
    rw [Nat.zero_add] at h2
    obtain ⟨c2, h3, h4⟩ := arun_end h2
    have e : m + (k + 1) = m + 1 + k := by omega
    obtain ⟨c3, h5, h6⟩ := ih h4 (by omega)
    refine ⟨c3, ?_, by rw [e]; exact h6⟩
    rw [growLen, as_add, putAll_append _ _ _ _ h1]
    show (put c1 97 >>= fun s => putAll s (as (growLen (m + 1) k))) = _
    rw [put_a h2.len, h3]
    exact h5

/-- The state after the replacement of the dictionary. -/
def replacedComp (N t : SeqDB) (n : Nat) (out : Bytes) : Comp :=
  { db := N ++ t, nextCode := n, lastSeq := some 71, lastNew := some 71, ndb := [], nnext := firstCode,
    utf8len := 0, out := out }

/-- The full chain. -/
def mfull : Nat := maxCode - 101

/-- What the compressor has written when the dictionary of the repeated `a` is full. -/
def longOut : Bytes := aout mfull ++ (wr (maxCode - 1) ++ wr optimizeCode)

/-- The number of `a` that fills the dictionary after the first three. -/
def longLen : Nat := 1 + (growLen 2 (mfull - 2) + ((mfull - 1) + 1))

/-- A text of `a` that fills the dictionary, from any compressor that has seen `aaa` with an empty dictionary. -/
theorem arun_replace {p : Bytes} {N : SeqDB} {c : Comp} (h : ARun p N 1 1 c) : ∃ t k, (∀ e ∈ t, e.1.2 = 71 ∧ e.2.used = false) ∧
    putAll c (as longLen) = .ok (replacedComp N t k (p ++ longOut)) := by
  have hM : maxCode = 32893 := by decide
  have hF : mfull = 32792 := by decide
  obtain ⟨c0, z1, z2⟩ := arun_end h
  obtain ⟨c1, a1, a2⟩ := arun_grow (mfull - 2) z2 (by omega)
  rw [show 1 + 1 + (mfull - 2) = mfull by omega] at a2
  obtain ⟨c2, b1, b2⟩ := arun_walk (mfull - 1) a2 (by omega) (by
    rw [Nat.zero_add, show mfull - 1 = 32790 + 1 by omega]
    show 102 + 32790 < maxCode
    omega)
  rw [Nat.zero_add] at b2
  have e : anode (mfull - 1 + 1) = maxCode := by
    rw [show mfull - 1 + 1 = 32791 + 1 by omega]
    show 102 + 32791 = maxCode
    omega
  have e' : anode (mfull - 1) = maxCode - 1 := by
    rw [show mfull - 1 = 32790 + 1 by omega]
    show 102 + 32790 = maxCode - 1
    omega
  obtain ⟨t, t1, k, t2⟩ := arun_full b2 (by omega) (Nat.le_of_eq e.symm)
  refine ⟨t, k, t1, ?_⟩
  rw [longLen, as_add, putAll_append _ _ _ _ (put_one h.len z1), as_add, putAll_append _ _ _ _ a1, as_add,
    putAll_append _ _ _ _ b1, put_one b2.len t2, e', longOut]
  rfl

/-- The compressor with an empty dictionary, after `aaa`; `N`, `n` are the dictionary being prepared and its next code. -/
def aaaComp (N : SeqDB) (n : Nat) : Comp :=
  { db := [((71, 71), { next := 102, new := some n, used := true })], nextCode := 103, lastSeq := some 102,
    lastNew := some n, ndb := N ++ [((71, 71), { next := n })], nnext := n + 1, utf8len := 0, out := [71] }

theorem aaa_run (N : SeqDB) (n : Nat) : ARun [] (N ++ [((71, 71), { next := n })]) 1 1 (aaaComp N n) :=
  ⟨rfl, rfl, rfl, Nat.le_refl _, rfl, ⟨(fun e he _ hn => by
      rw [List.mem_singleton.1 he] at hn
      cases hn), (fun _ _ hn => by cases hn)⟩, rfl, [], (List.append_nil _).symm, fun e he => by cases he⟩

theorem cfind_other {N t : SeqDB} {q : Nat} (hN : cfind N (q, 72) = none) (ht : ∀ e ∈ t, e.1.2 = 71 ∧ e.2.used = false) :
    cfind (N ++ t) (q, 72) = none := by
  unfold cfind at hN ⊢
  rw [Option.map_eq_none_iff, List.find?_eq_none] at hN ⊢
  intro e he h
  rcases List.mem_append.1 he with he | he
  · exact hN e he h
  · have h1 : e.1 = (q, 72) := by simpa using h
    have h2 := (ht e he).1
    rw [h1] at h2
    cases h2

theorem cfind_first {N t : SeqDB} {k : Nat × Nat} {i : Info} (h : cfind N k = some i) : cfind (N ++ t) k = some i := by
  unfold cfind at h ⊢
  rw [List.find?_append]
  obtain ⟨e, h1, h2⟩ := Option.map_eq_some_iff.1 h
  rw [h1, Option.some_or, Option.map_some, h2]

theorem put_b {c : Comp} (h : c.utf8len = 0) : put c 98 = compressSym c 72 := by
  unfold put
  rw [if_neg (by rw [h]; simp)]
  rfl

/-- The compressor after a symbol that is not found. -/
def newPair (c : Comp) (q x : Nat) : Comp :=
  { c with out := c.out ++ wr q, db := cinsert c.db (q, x) { next := c.nextCode }, nextCode := c.nextCode + 1,
           lastSeq := some x, lastNew := some x }

theorem sym_none {c : Comp} {q x : Nat} (hx : x < firstCode) (hs : c.lastSeq = some q)
    (hf : cfind c.db (q, x) = none) : compressSym c x = .ok (newPair c q x) := by
  unfold compressSym
  rw [if_neg (Nat.not_le.2 hx), hs]
  dsimp only
  rw [hf]
  rfl

theorem sym_some {c : Comp} {q x : Nat} {i : Info} (ho : OptOk c) (hx : x < firstCode) (hs : c.lastSeq = some q)
    (hf : cfind c.db (q, x) = some i) (hi : i.next < maxCode) :
    ∃ c', compressSym c x = .ok c' ∧ c'.lastSeq = some i.next ∧ c'.out = c.out := by
  obtain ⟨c', a1, _, a3, _, _, a6, _⟩ := advance_opt c ho q x hs i hf
  refine ⟨c', ?_, a3, a6⟩
  unfold compressSym
  rw [if_neg (Nat.not_le.2 hx), hs]
  dsimp only
  rw [hf]
  dsimp only
  rw [if_neg (Nat.not_le.2 hi), a1]

theorem put2 {c c1 c2 : Comp} (h : c.utf8len = 0) (h1 : compressSym c 72 = .ok c1) (h' : c1.utf8len = 0)
    (h2 : compressSym c1 72 = .ok c2) : putAll c [98, 98] = .ok c2 := by
  rw [putAll, put_b h, h1, Res.bind_ok, putAll, put_b h', h2]
  rfl

/-- `bb` after the replacement, when it is not known. -/
theorem bb_new {N t : SeqDB} {k : Nat} {out : Bytes} (h1 : cfind N (71, 72) = none) (h2 : cfind N (72, 72) = none)
    (ht : ∀ e ∈ t, e.1.2 = 71 ∧ e.2.used = false) : ∃ c, putAll (replacedComp N t k out) [98, 98] = .ok c ∧
      finish c = out ++ [71, 72, 72, 255, 255] := by
  have e1 : cfind (N ++ t) (71, 72) = none := cfind_other h1 ht
  have e2 : cfind (N ++ t) (72, 72) = none := cfind_other h2 ht
  have e3 : cfind (newPair (replacedComp N t k out) 71 72).db (72, 72) = none := by
    show cfind (cinsert (N ++ t) (71, 72) { next := k }) (72, 72) = none
    rw [bare_insert _ _ _ e1]
    unfold cfind at e2 ⊢
    rw [Option.map_eq_none_iff] at e2 ⊢
    rw [List.find?_append, e2]
    rfl
  refine ⟨_, put2 rfl (sym_none (by decide) rfl e1) rfl (sym_none (by decide) rfl e3), ?_⟩
  show ((out ++ wr 71) ++ wr 72) ++ wr 72 ++ wr flushCode = _
  simp only [List.append_assoc]
  rfl

/-- `bb` after the replacement, when it is known. -/
theorem bb_known {N t : SeqDB} {k : Nat} {out : Bytes} {i : Info} (h1 : cfind N (71, 72) = none)
    (h2 : cfind N (72, 72) = some i) (hi : i.next < maxCode) (hu : ∀ e ∈ N, e.2.used = false)
    (ht : ∀ e ∈ t, e.1.2 = 71 ∧ e.2.used = false) : ∃ c, putAll (replacedComp N t k out) [98, 98] = .ok c ∧
      finish c = out ++ ([71] ++ (wr i.next ++ [255, 255])) := by
  have e1 : cfind (N ++ t) (71, 72) = none := cfind_other h1 ht
  have e3 : cfind (newPair (replacedComp N t k out) 71 72).db (72, 72) = some i := by
    show cfind (cinsert (N ++ t) (71, 72) { next := k }) (72, 72) = some i
    rw [bare_insert _ _ _ e1]
    exact cfind_first (cfind_first h2)
  have ho : OptOk (newPair (replacedComp N t k out) 71 72) := by
    refine ⟨fun e he hue => ?_, fun _ _ hn => by cases hn⟩
    have he : e ∈ cinsert (N ++ t) (71, 72) { next := k } := he
    rw [bare_insert _ _ _ e1] at he
    rcases List.mem_append.1 he with he | he
    · rcases List.mem_append.1 he with he | he
      · rw [hu e he] at hue; cases hue
      · rw [(ht e he).2] at hue; cases hue
    · rw [List.mem_singleton.1 he] at hue; cases hue
  obtain ⟨c', a1, a2, a3⟩ := sym_some ho (by decide) rfl e3 hi
  refine ⟨c', put2 rfl (sym_none (by decide) rfl e1) rfl a1, ?_⟩
  unfold finish
  rw [a2]
  show (c'.out ++ wr i.next) ++ wr flushCode = _
  rw [a3]
  show ((out ++ wr 71) ++ wr i.next) ++ wr flushCode = _
  simp only [List.append_assoc]
  rfl

/-- A new compressor, the long text of `a`, then `bb`. -/
theorem long_new : compressAll (as (3 + longLen) ++ [98, 98]) = .ok (longOut ++ [71, 72, 72, 255, 255]) := by
  obtain ⟨t, k, h1, h2⟩ := arun_replace (aaa_run [] 102)
  have h3 : putAll {} (as (3 + longLen)) = .ok (replacedComp ([] ++ [((71, 71), { next := 102 })]) t k ([] ++ longOut)) := by
    rw [as_add, putAll_append _ _ _ (aaaComp [] 102) (by rfl), h2]
  obtain ⟨c, h4, h5⟩ := bb_new (N := [] ++ [((71, 71), { next := 102 })]) (k := k) (out := [] ++ longOut) rfl rfl h1
  unfold compressAll
  rw [putAll_append _ _ _ _ h3, h4, Res.bind_ok, h5, List.nil_append]

/-- The same text, after `bbbb` and reset. -/
theorem long_reset : afterReset [98, 98, 98, 98] (as (3 + longLen) ++ [98, 98]) =
    .ok (longOut ++ [71, 102, 255, 255]) := by
  obtain ⟨t, k, h1, h2⟩ := arun_replace (aaa_run [((72, 72), { next := 102 })] 103)
  have h0 : ∃ c, putAll {} [98, 98, 98, 98] = .ok c ∧ c.reset = { c with nextCode := 102, lastSeq := none, db := [] } ∧
      putAll { c.reset with out := [] } (as 3) = .ok (aaaComp [((72, 72), { next := 102 })] 103) :=
    ⟨_, by rfl, by rfl, by rfl⟩
  obtain ⟨c0, z1, _, z2⟩ := h0
  obtain ⟨c, h4, h5⟩ := bb_known (N := [((72, 72), { next := 102 })] ++ [((71, 71), { next := 103 })]) (k := k)
    (out := [] ++ longOut) (i := { next := 102 }) rfl rfl (by decide) (by decide) h1
  unfold afterReset
  rw [z1, Res.bind_ok, as_add, List.append_assoc, putAll_append _ _ _ _ z2, putAll_append _ _ _ _ h2, h4, Res.bind_ok, h5,
    List.nil_append]
  rfl

/-- **C123 violated.** Between whole texts: the dictionary the optimizer prepares is left by the reset, so a compressor
that has compressed `bbbb` and was reset writes another stream for a text of many `a` followed by `bb` than a new
compressor does. It uses the first code of the replaced dictionary for `bb`, where every reader has `aa`. -/
theorem C123_violation_long : ∃ t x y : Bytes, compressAll t = .ok (x ++ y) ∧ y = [71, 72, 72, 255, 255] ∧
    afterReset [98, 98, 98, 98] t = .ok (x ++ [71, 102, 255, 255]) :=
  ⟨as (3 + longLen) ++ [98, 98], longOut, _, long_new, rfl, long_reset⟩

end Imt.Props
