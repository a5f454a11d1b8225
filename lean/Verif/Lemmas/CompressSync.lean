import Verif.Lemmas.Compress
/-!
# The compressor and the decompressor keep the same dictionaries
-/
namespace Imt.Compr
open Imt

/-- The hash map of the compressor for a dictionary of the decompressor. -/
def cdb (V : List DInfo) : SeqDB := V.mapIdx (fun i d => ((d.prev, d.ch), { next := i + firstCode, new := d.new, used := d.used }))

/-- Invariant of dictionaries made by the compressor. -/
structure InvC (s : Dicts) : Prop extends InvD s where
  nodup : ∀ (i j : Nat) d e, s.1[i]? = some d → s.1[j]? = some e → d.prev = e.prev → d.ch = e.ch → i = j
  link : ∀ (j : Nat) e, s.2[j]? = some e → ∃ (i : Nat) (d : DInfo), s.1[i]? = some d ∧ d.new = some (j + firstCode) ∧
    newOf s d.prev = some e.prev ∧ d.ch = e.ch
  inj : ∀ q q' n, newOf s q = some n → newOf s q' = some n → q = q'

theorem InvC.nodup2 {s : Dicts} (h : InvC s) : ∀ (i j : Nat) d e, s.2[i]? = some d → s.2[j]? = some e → d.prev = e.prev → d.ch = e.ch → i = j := by
  intro i j d e hd he h1 h2
  obtain ⟨i', d', a1, a2, a3, a4⟩ := h.link i d hd
  obtain ⟨j', e', b1, b2, b3, b4⟩ := h.link j e he
  have hp : d'.prev = e'.prev := h.inj _ _ e.prev (by rw [a3, h1]) b3
  have : i' = j' := h.nodup _ _ _ _ a1 b1 hp (by rw [a4, b4, h2])
  subst this
  rw [a1] at b1
  cases b1
  rw [a2] at b2
  simp only [Option.some.injEq] at b2
  omega

/-! ### Hash map -/

theorem cdb_get (V : List DInfo) (i : Nat) :
    (cdb V)[i]? = (V[i]?).map (fun d => ((d.prev, d.ch), { next := i + firstCode, new := d.new, used := d.used })) := by
  simp [cdb, List.getElem?_mapIdx]

theorem cdb_push (V : List DInfo) (d : DInfo) :
    cdb (V ++ [d]) = cdb V ++ [((d.prev, d.ch), { next := V.length + firstCode, new := d.new, used := d.used })] := by
  simp [cdb, List.mapIdx_append]

theorem cfind_some {V : List DInfo} {k : Nat × Nat} {i : Info} (h : cfind (cdb V) k = some i) :
    ∃ (j : Nat) (d : DInfo), V[j]? = some d ∧ k = (d.prev, d.ch) ∧ i = { next := j + firstCode, new := d.new, used := d.used } := by
  unfold cfind at h
  obtain ⟨e, he, rfl⟩ := Option.map_eq_some_iff.1 h
  have hm := List.mem_of_find?_eq_some he
  have hk := List.find?_some he
  obtain ⟨j, hj⟩ := List.getElem?_of_mem hm
  rw [cdb_get] at hj
  obtain ⟨d, hd, rfl⟩ := Option.map_eq_some_iff.1 hj
  exact ⟨j, d, hd, (beq_iff_eq.1 hk).symm, rfl⟩

theorem cfind_none {V : List DInfo} {k : Nat × Nat} (h : cfind (cdb V) k = none) (j : Nat) (d : DInfo) (hd : V[j]? = some d) :
    (d.prev, d.ch) ≠ k := by
  intro hk
  unfold cfind at h
  rw [Option.map_eq_none_iff, List.find?_eq_none] at h
  have hj := cdb_get V j
  rw [hd] at hj
  have := h _ (List.mem_of_getElem? hj)
  exact this (beq_iff_eq.2 hk)

theorem cfind_eq {V : List DInfo} (hn : ∀ (i j : Nat) d e, V[i]? = some d → V[j]? = some e → d.prev = e.prev → d.ch = e.ch → i = j)
    {j : Nat} {d : DInfo} (hd : V[j]? = some d) : cfind (cdb V) (d.prev, d.ch) = some { next := j + firstCode, new := d.new, used := d.used } := by
  cases h : cfind (cdb V) (d.prev, d.ch) with
  | none => exact absurd rfl (cfind_none h j d hd)
  | some i =>
    obtain ⟨j', d', h1, h2, h3⟩ := cfind_some h
    have h4 : j = j' := hn _ _ _ _ hd h1 (congrArg (·.1) h2) (congrArg (·.2) h2)
    subst h4
    rw [hd] at h1
    cases h1
    exact congrArg some h3

theorem cfind_absent {V : List DInfo} {k : Nat × Nat} (h : ∀ (j : Nat) (d : DInfo), V[j]? = some d → (d.prev, d.ch) ≠ k) : cfind (cdb V) k = none := by
  cases hc : cfind (cdb V) k with
  | none => rfl
  | some i =>
    obtain ⟨j, d, h1, h2, _⟩ := cfind_some hc
    exact absurd h2.symm (h j d h1)

/-! ### Marks keep the invariant -/

theorem mark_invC {s : Dicts} (h : InvC s) {i : Nat} {d : DInfo} (hd : s.1[i]? = some d)
    (hp : (newOf s d.prev).isSome = true ∨ Full s) : InvC (mark s i) := by
  have hD := (mark_inv h.toInvD hd hp).1
  by_cases hf : Full s
  · rw [mark_full hf]; exact h
  cases hu : d.used with
  | true => rw [mark_used hd hu]; exact h
  | false =>
    have hp : (newOf s d.prev).isSome = true := hp.resolve_right hf
    have hl : i < s.1.length := (List.getElem?_eq_some_iff.1 hd).1
    obtain ⟨pn, hpn⟩ := Option.isSome_iff_exists.1 hp
    have hnone : newOf s (i + firstCode) = none := by
      rw [newOf_code, hd]
      have := h.flags i d hd
      rw [hu] at this
      simpa using this.symm
    have hsh := shape_mark s i
    refine ⟨hD, ?_, ?_, ?_⟩
    · intro a b x y hx hy h1 h2
      obtain ⟨x', hx', e1, e2⟩ := shape_get hsh hx
      obtain ⟨y', hy', f1, f2⟩ := shape_get hsh hy
      exact h.nodup a b x' y' hx' hy' (by rw [e1, f1, h1]) (by rw [e2, f2, h2])
    · rw [mark_new hd hu hf]
      intro j e he
      rw [List.getElem?_append] at he
      split at he
      · obtain ⟨i', d', a1, a2, a3, a4⟩ := h.link j e he
        have hne : i ≠ i' := by
          rintro rfl
          rw [newOf_code, a1] at hnone
          simp only [Option.bind_some] at hnone
          rw [a2] at hnone
          cases hnone
        refine ⟨i', d', ?_, a2, ?_, a4⟩
        · dsimp only
          rw [List.getElem?_set, if_neg hne, a1]
        · rw [newOf_set hd, if_neg, a3]
          rintro hq
          rw [hq, hnone] at a3
          cases a3
      · have hx := (List.getElem?_eq_some_iff.1 he).1
        simp at hx
        have hj : j = s.2.length := by omega
        subst hj
        simp only [Nat.sub_self, List.getElem?_cons_zero, Option.some.injEq] at he
        subst he
        refine ⟨i, { d with used := true, new := some (s.2.length + firstCode) }, ?_, rfl, ?_, rfl⟩
        · simp [hl]
        · rw [newOf_set hd, if_neg (by have := (h.wf i d hd).1; dsimp only; omega)]
          dsimp only
          rw [hpn]
          rfl
    · rw [mark_new hd hu hf]
      have bound : ∀ q n, newOf s q = some n → n < s.2.length + firstCode := by
        intro q n hq
        unfold newOf at hq
        split at hq
        · cases hq; omega
        · cases hx : s.1[q - firstCode]? with
          | none => rw [hx] at hq; cases hq
          | some e => rw [hx] at hq; exact (h.range _ e n hx hq).2
      intro q q' n h1 h2
      rw [newOf_set hd] at h1 h2
      by_cases e1 : q = i + firstCode <;> by_cases e2 : q' = i + firstCode
      · rw [e1, e2]
      · rw [if_pos e1] at h1
        rw [if_neg e2] at h2
        have := bound _ _ h2
        simp only [Option.some.injEq] at h1
        omega
      · rw [if_neg e1] at h1
        rw [if_pos e2] at h2
        have := bound _ _ h1
        simp only [Option.some.injEq] at h2
        omega
      · rw [if_neg e1] at h1
        rw [if_neg e2] at h2
        exact h.inj q q' n h1 h2

theorem markPath_invC {s : Dicts} (h : InvC s) {q c : Nat} {is syms : List Nat} (hp : Path s.1 q is c syms) : InvC (markPath s is) := by
  induction hp with
  | root _ => exact h
  | step hd hp' ih =>
    rename_i i d is c syms
    obtain ⟨e, he, h1, _⟩ := shape_get (shape_markPath is s).symm hd
    rw [markPath_append]
    exact mark_invC ih he (by rw [h1]; exact (markPath_inv h.toInvD hp').2)

theorem newOf_push {V N : List DInfo} {e : DInfo} (he : e.new = none) (q : Nat) : newOf (V ++ [e], N) q = newOf (V, N) q := by
  unfold newOf
  split
  · rfl
  · dsimp only
    rw [List.getElem?_append]
    split
    · rfl
    · rename_i h
      have h1 : V[q - firstCode]? = none := by rw [List.getElem?_eq_none_iff]; omega
      rw [h1]
      cases hx : [e][q - firstCode - V.length]? with
      | none => rfl
      | some x =>
        have := List.mem_of_getElem? hx
        rw [List.mem_singleton] at this
        subst this
        exact he

theorem get_push {V : List DInfo} {e d : DInfo} {i : Nat} (hd : (V ++ [e])[i]? = some d) : V[i]? = some d ∨ (i = V.length ∧ d = e) := by
  rw [List.getElem?_append] at hd
  split at hd
  · exact .inl hd
  · right
    have hx := (List.getElem?_eq_some_iff.1 hd).1
    simp at hx
    have : i = V.length := by omega
    subst this
    simp at hd
    exact ⟨rfl, hd.symm⟩

theorem InvC.push {V N : List DInfo} (h : InvC (V, N)) {q c : Nat} (hq : q < V.length + firstCode) (hc : c < firstCode)
    (hk : ∀ (j : Nat) (d : DInfo), V[j]? = some d → (d.prev, d.ch) ≠ (q, c)) : InvC (V ++ [{ prev := q, ch := c }], N) := by
  refine ⟨h.toInvD.push hq hc, ?_, ?_, ?_⟩
  · intro i j d e hd he h1 h2
    rcases get_push hd with hd | ⟨rfl, rfl⟩ <;> rcases get_push he with he | ⟨rfl, rfl⟩
    · exact h.nodup i j d e hd he h1 h2
    · exact absurd (by rw [h1, h2]) (hk i d hd)
    · exact absurd (by rw [← h1, ← h2]) (hk j e he)
    · rfl
  · intro j e he
    obtain ⟨i, d, a1, a2, a3, a4⟩ := h.link j e he
    refine ⟨i, d, ?_, a2, ?_, a4⟩
    · dsimp only
      rw [List.getElem?_append_left (List.getElem?_eq_some_iff.1 a1).1]
      exact a1
    · rw [newOf_push rfl]; exact a3
  · intro a b n h1 h2
    rw [newOf_push rfl] at h1 h2
    exact h.inj a b n h1 h2

/-- The rebuilt dictionary. -/
theorem InvC.swap {s : Dicts} (h : InvC s) : InvC (s.2, []) := by
  have hnone : ∀ q n, newOf (s.2, []) q = some n → q = n := by
    intro q n hq
    unfold newOf at hq
    split at hq
    · cases hq; rfl
    · dsimp only at hq
      cases hx : s.2[q - firstCode]? with
      | none => rw [hx] at hq; cases hq
      | some e =>
        rw [hx] at hq
        simp only [Option.bind_some] at hq
        rw [(h.clean e (List.mem_of_getElem? hx)).2] at hq
        cases hq
  refine ⟨⟨h.wfn, ?_, ?_, ?_, ?_, ?_⟩, h.nodup2, ?_, ?_⟩
  · intro i d hd; simp at hd
  · intro i d hd
    have := h.clean d (List.mem_of_getElem? hd)
    rw [this.1, this.2]; rfl
  · intro d hd; cases hd
  · intro i d hd hu
    rw [(h.clean d (List.mem_of_getElem? hd)).1] at hu
    cases hu
  · intro i d n hd hn
    rw [(h.clean d (List.mem_of_getElem? hd)).2] at hn
    cases hn
  · intro j e he; simp at he
  · intro q q' n h1 h2
    rw [hnone q n h1, hnone q' n h2]

/-! ### One step of the compressor's walk -/

/-- The compressor represents the dictionaries `s`. -/
structure Rep (c : Comp) (s : Dicts) : Prop where
  db : c.db = cdb s.1
  next : c.nextCode = s.1.length + firstCode
  ndb : c.ndb = cdb s.2
  nnext : c.nnext = s.2.length + firstCode

theorem advance_eq {c : Comp} {s : Dicts} (hr : Rep c s) (h : InvC s) {i : Nat} {d : DInfo} (hd : s.1[i]? = some d)
    (hp : (newOf s d.prev).isSome = true ∨ Full s) (hn : c.lastNew = newOf s d.prev) :
    ∃ c', advance c (d.prev, d.ch) { next := i + firstCode, new := d.new, used := d.used } = .ok c' ∧ Rep c' (mark s i) ∧
      c'.lastSeq = some (i + firstCode) ∧ c'.lastNew = newOf (mark s i) (i + firstCode) ∧ c'.out = c.out ∧ c'.utf8len = c.utf8len := by
  have hl : i < s.1.length := (List.getElem?_eq_some_iff.1 hd).1
  have tail : ∀ {c1 : Comp}, Rep c1 (mark s i) → (cfind c1.db (d.prev, d.ch)).bind (·.new) = newOf (mark s i) (i + firstCode) := by
    intro c1 h1
    obtain ⟨e, he, e1, e2⟩ := shape_get (shape_mark s i).symm hd
    rw [h1.db, ← e1, ← e2, cfind_eq (mark_invC h hd hp).nodup he, newOf_code, he]
    rfl
  unfold advance
  cases hu : d.used with
  | true =>
    have hm := mark_used hd hu
    have hr' : Rep c (mark s i) := by rw [hm]; exact hr
    simp only [if_true, Res.bind_ok]
    exact ⟨_, rfl, ⟨hr'.db, hr'.next, hr'.ndb, hr'.nnext⟩, rfl, tail hr', rfl, rfl⟩
  | false =>
    simp only [Bool.false_eq_true, if_false]
    by_cases hf : Full s
    · have hm := mark_full hf i
      have hr' : Rep c (mark s i) := by rw [hm]; exact hr
      have : addCode c (d.prev, d.ch) = .ok c := by
        unfold addCode
        rw [hr.nnext, if_neg hf]
      rw [this]
      simp only [Res.bind_ok]
      exact ⟨_, rfl, ⟨hr'.db, hr'.next, hr'.ndb, hr'.nnext⟩, rfl, tail hr', rfl, rfl⟩
    · obtain ⟨pn, hpn⟩ := Option.isSome_iff_exists.1 (hp.resolve_right hf)
      have hm := mark_new hd hu hf
      have hroom : c.nnext < maxCodeForOptimize := by
        rw [hr.nnext]; unfold Full at hf; omega
      have hkey : cfind c.ndb (pn, d.ch) = none := by
        rw [hr.ndb]
        apply cfind_absent
        intro j e he hk
        obtain ⟨i', d', a1, a2, a3, a4⟩ := h.link j e he
        injection hk with k1 k2
        have hpp : d'.prev = d.prev := h.inj _ _ pn (by rw [a3, k1]) hpn
        have hii : i' = i := h.nodup _ _ _ _ a1 hd hpp (by rw [a4, k2])
        subst hii
        rw [hd] at a1
        cases a1
        have := h.flags i' d hd
        rw [hu, a2] at this
        cases this
      have hadd : addCode c (d.prev, d.ch) = .ok { c with
          ndb := cdb (s.2 ++ [{ prev := pn, ch := d.ch }])
          db := cdb (s.1.set i { d with used := true, new := some (s.2.length + firstCode) })
          nnext := s.2.length + 1 + firstCode } := by
        unfold addCode
        rw [if_pos hroom, hn, hpn]
        dsimp only
        congr 2
        · rw [hr.db]
          apply List.ext_getElem?
          intro j
          rw [List.getElem?_map, cdb_get, cdb_get, List.getElem?_set]
          by_cases hj : i = j
          · subst hj
            rw [if_pos rfl, if_pos hl, hd]
            simp [hr.nnext]
          · rw [if_neg hj]
            cases hx : s.1[j]? with
            | none => rfl
            | some e =>
              simp only [Option.map_some]
              rw [if_neg]
              intro hk
              injection hk with k1 k2
              exact hj (h.nodup _ _ _ _ hd hx k1.symm k2.symm)
        · unfold cinsert
          rw [hkey, cdb_push, hr.ndb, hr.nnext]
        · rw [hr.nnext]; omega
      rw [hadd]
      simp only [Res.bind_ok]
      have hr' : Rep { c with
          ndb := cdb (s.2 ++ [{ prev := pn, ch := d.ch }])
          db := cdb (s.1.set i { d with used := true, new := some (s.2.length + firstCode) })
          nnext := s.2.length + 1 + firstCode } (mark s i) := by
        rw [hm, hpn]
        refine ⟨rfl, ?_, rfl, ?_⟩
        · dsimp only
          rw [hr.next, List.length_set]
        · simp
      exact ⟨_, rfl, ⟨hr'.db, hr'.next, hr'.ndb, hr'.nnext⟩, rfl, tail hr', rfl, rfl⟩

/-! ### Expansion of a code by the decompressor -/

/-- The entry which the decompressor adds with the next code that starts with `c0`. -/
def pend (prev : Option Nat) (c0 : Nat) : List DInfo :=
  match prev with
  | none => []
  | some w => [{ prev := w, ch := c0 }]

/-- The previous code is known and `firstChar` is its first symbol. -/
def PrevOk (d : Dec) : Prop := ∀ w, d.prev = some w → ∃ is f syms, Path d.db w is f syms ∧ d.firstChar = some f

theorem expand_eq {d : Dec} (h : InvD (d.db, d.ndb)) (hprev : PrevOk d) {q c0 : Nat} {is syms : List Nat}
    (hp : Path (d.db ++ pend d.prev c0) q is c0 syms) :
    expand d q = .ok (c0, { d with
      db := (markPath (d.db ++ pend d.prev c0, d.ndb) is).1
      ndb := (markPath (d.db ++ pend d.prev c0, d.ndb) is).2
      ready := syms, firstChar := some c0, prev := some q }) := by
  have hc0 := path_lt hp
  have hwf : WF (d.db ++ pend d.prev c0) := by
    cases hw : d.prev with
    | none => simpa [pend] using h.wf
    | some w =>
      obtain ⟨iw, f, sw, hpw, _⟩ := hprev w hw
      exact (h.push (path_lt_len hpw) hc0).wf
  by_cases hq : q < d.db.length + firstCode
  · -- a known code
    have hp1 := hp.pop hwf hq
    have hlen := path_length h.wf hp1
    unfold expand
    rw [if_neg (by omega), if_neg (by omega), expandLoop_eq hp1 (d.db, d.ndb) rfl h _ (by omega)]
    simp only [Res.bind_ok, List.append_nil]
    rw [markPath_push is _ d.db d.ndb h.wf (path_idx hp1)]
    cases hw : d.prev with
    | none => simp [register, pend]
    | some w => simp [register, pend]
  · -- the code just made
    cases hw : d.prev with
    | none =>
      rw [hw] at hp
      simp only [pend, List.append_nil] at hp
      exact absurd (path_lt_len hp) hq
    | some w =>
      rw [hw] at hp hwf
      simp only [pend] at hp hwf ⊢
      obtain ⟨iw, f, sw, hpw, hf⟩ := hprev w hw
      have hql := path_lt_len hp
      simp only [List.length_append, List.length_cons, List.length_nil] at hql
      have hq' : q = d.db.length + firstCode := by omega
      subst hq'
      have hnew : (d.db ++ [{ prev := w, ch := c0 }])[d.db.length]? = some { prev := w, ch := c0 } := by simp
      have hpp := Path.step hnew (hpw.push [{ prev := w, ch := c0 }])
      obtain ⟨rfl, rfl, rfl⟩ := hp.unique hpp
      have hlen := path_length h.wf hpw
      have hlt := path_lt_len hpw
      unfold expand
      rw [if_pos rfl, hf, hw]
      dsimp only
      rw [expandLoop_eq hpw (d.db, d.ndb) rfl h _ (by omega)]
      simp only [Res.bind_ok, register, if_true]
      have hi : InvD (d.db ++ [{ prev := w, ch := c0 }], d.ndb) := h.push hlt hc0
      have hm := markPath_push iw [{ prev := w, ch := c0 }] d.db d.ndb h.wf (path_idx hpw)
      have hi2 := (markPath_inv hi (hpw.push _)).1
      have hll := markPath_length (d.db, d.ndb) iw
      rw [← hm]
      have hsh := shape_markPath iw (d.db ++ [{ prev := w, ch := c0 }], d.ndb)
      rw [hll]
      have hml : ((markPath (d.db ++ [{ prev := w, ch := c0 }], d.ndb) iw).1).length = d.db.length + 1 := by
        rw [markPath_length]; simp
      have hlist : (markPath (d.db, d.ndb) iw).1 ++ [({ prev := w, ch := c0 } : DInfo)] =
          (markPath (d.db ++ [{ prev := w, ch := c0 }], d.ndb) iw).1 := by rw [hm]
      rw [hlist, hml, translate_eq hi2 (hpp.congr hsh.symm) _ (by simp only [List.length_append, List.length_cons, List.length_nil]; omega)]
      simp only [Res.bind_ok]
      rw [markPath_append, markPath_twice hi (hpw.push _), ← markPath_append]

/-! ### Codes in bytes -/

theorem readCode_wr {q : Nat} (h : q ≤ flushCode) (rest : Bytes) : readCode (wr q ++ rest) = (q, rest) := by
  have hb : ∀ b, b < 128 → (b &&& 128 ≠ 128) ∧ (b ||| 128) &&& 128 = 128 ∧ (b ||| 128) &&& 127 = b := by decide
  have hE : extCodeMask = 128 := rfl
  have hF : flushCode = 127 * 256 + 255 + 128 := rfl
  unfold wr readCode nextByte
  rw [hE]
  by_cases hq : q < 128
  · simp only [if_pos hq, List.cons_append, List.nil_append, if_pos (hb q hq).1]
  · have hdiv : (q - 128) / 256 < 128 := by omega
    have hmod : (q - 128) / 256 % 256 = (q - 128) / 256 := Nat.mod_eq_of_lt (by omega)
    obtain ⟨_, h2, h3⟩ := hb _ hdiv
    simp only [if_neg hq, List.cons_append, List.nil_append, hmod, h2, ne_eq, not_true, if_false]
    have h4 : (((q - 128) / 256 ||| 128) &&& 0x7F) * 256 + (q - 128) % 256 + 128 = q := by
      rw [show (0x7F : Nat) = 127 from rfl, h3]; omega
    rw [h4]

/-! ### Symbols given by the decompressor -/

/-- Calls of `decompress` give the symbols `l`; `utf8len` does not matter. -/
inductive Yields : Dec → List Nat → Dec → Prop
  | nil {d : Dec} : Yields d [] d
  | cons {d d1 d2 : Dec} {c : Nat} {l : List Nat} : (∀ n, decomp { d with utf8len := n } = .ok (c, { d1 with utf8len := n })) →
      Yields d1 l d2 → Yields d (c :: l) d2

theorem Yields.append {d d1 d2 : Dec} {a b : List Nat} (h : Yields d a d1) (h' : Yields d1 b d2) : Yields d (a ++ b) d2 := by
  induction h with
  | nil => exact h'
  | cons h _ ih => exact .cons h (ih h')

theorem yields_ready (st : List Nat) : ∀ (d : Dec), d.ready = st → Yields d st { d with ready := [] } := by
  induction st with
  | nil => intro d h; rw [show ({ d with ready := [] } : Dec) = d from by rw [← h]]; exact .nil
  | cons c st ih =>
    intro d h
    refine .cons (d1 := { d with ready := st }) (fun n => ?_) (ih _ rfl)
    unfold decomp
    rw [decompress.eq_def]
    dsimp only
    rw [h]

/-- `decompress` from `d` goes on from `d0`. -/
def Arr (d d0 : Dec) : Prop := ∀ n fuel, ∃ f, decompress (fuel + 1) { d with utf8len := n } = decompress f { d0 with utf8len := n }

theorem Arr.refl (d : Dec) : Arr d d := fun _ fuel => ⟨fuel + 1, rfl⟩

theorem optimize_code_ne : optimizeCode ≠ flushCode := by decide
theorem optimize_code_le : optimizeCode ≤ flushCode := by decide

theorem Arr.optimize (d : Dec) (h : d.ready = []) (rest : Bytes) :
    Arr { d with inp := wr optimizeCode ++ rest } { d with db := d.ndb, ndb := [], prev := none, inp := rest } := by
  intro n fuel
  refine ⟨fuel, ?_⟩
  rw [decompress.eq_def]
  dsimp only
  rw [h]
  dsimp only
  rw [readCode_wr optimize_code_le]
  dsimp only
  rw [if_neg optimize_code_ne, if_pos rfl]

/-- Reading a code. -/
theorem yields_code {d d0 : Dec} {q c0 : Nat} {syms : List Nat} {rest : Bytes} (ha : Arr d { d0 with inp := wr q ++ rest })
    (hr : d0.ready = []) (hq : q < maxCode) {V N : List DInfo}
    (he : ∀ n, expand { d0 with utf8len := n, inp := rest } q =
      .ok (c0, { d0 with utf8len := n, inp := rest, db := V, ndb := N, ready := syms, firstChar := some c0, prev := some q })) :
    Yields d (c0 :: syms) { d0 with inp := rest, db := V, ndb := N, ready := [], firstChar := some c0, prev := some q } := by
  refine .cons (d1 := { d0 with inp := rest, db := V, ndb := N, ready := syms, firstChar := some c0, prev := some q }) (fun n => ?_)
    (yields_ready syms _ rfl)
  unfold decomp
  obtain ⟨f, hf⟩ := ha n _
  rw [hf, decompress.eq_def]
  dsimp only
  rw [hr]
  dsimp only
  have h1 : maxCode < flushCode := by decide
  have h2 : maxCode < optimizeCode := by decide
  rw [readCode_wr (by omega)]
  dsimp only
  rw [if_neg (by omega), if_neg (by omega)]
  exact he n

/-! ### Synchronisation -/

/-- The state in the middle of a walk: the decompressor has processed the codes written, the compressor walked from `c0` over `u` and wrote
nothing yet. -/
structure Mid (c : Comp) (d : Dec) (c0 : Nat) (u : List Nat) (q : Nat) (is : List Nat) : Prop where
  inv : InvC (d.db ++ pend d.prev c0, d.ndb)
  invd : InvD (d.db, d.ndb)
  prevOk : PrevOk d
  ready : d.ready = []
  path : Path (d.db ++ pend d.prev c0) q is c0 u
  qlt : q < maxCode
  rep : Rep c (markPath (d.db ++ pend d.prev c0, d.ndb) is)
  seq : c.lastSeq = some q
  new : c.lastNew = newOf (markPath (d.db ++ pend d.prev c0, d.ndb) is) q

/-- The decompressor after the code `q` of the walk. -/
def after (d : Dec) (c0 q : Nat) (is : List Nat) (inp : Bytes) : Dec :=
  { d with
    db := (markPath (d.db ++ pend d.prev c0, d.ndb) is).1
    ndb := (markPath (d.db ++ pend d.prev c0, d.ndb) is).2
    ready := [], firstChar := some c0, prev := some q, inp := inp }

theorem Mid.read {c : Comp} {d : Dec} {c0 q : Nat} {u is : List Nat} (h : Mid c d c0 u q is) {d' : Dec} {rest : Bytes}
    (ha : Arr d' { d with inp := wr q ++ rest }) : Yields d' (c0 :: u) (after d c0 q is rest) := by
  refine yields_code ha h.ready h.qlt (fun n => ?_)
  exact expand_eq (d := { d with utf8len := n, inp := rest }) h.invd h.prevOk h.path

theorem firstCode_lt : firstCode < maxCode := by decide

/-- A new code: the walk starts again. -/
theorem Mid.notFound {c : Comp} {d : Dec} {c0 q : Nat} {u is : List Nat} (h : Mid c d c0 u q is) {x : Nat} (hx : x < firstCode)
    (hf : cfind c.db (q, x) = none) : ∃ c', compressSym c x = .ok c' ∧ c'.out = c.out ++ wr q ∧ c'.utf8len = c.utf8len ∧
      ∀ inp, Mid c' (after d c0 q is inp) x [] x [] := by
  have hs := shape_markPath is (d.db ++ pend d.prev c0, d.ndb)
  have hqlen : q < (markPath (d.db ++ pend d.prev c0, d.ndb) is).1.length + firstCode := by
    rw [shape_length hs]; exact path_lt_len h.path
  have hi := markPath_invC h.inv h.path
  have hstep : compressSym c x = .ok { c.write q with
      db := cinsert c.db (q, x) { next := c.nextCode }, nextCode := c.nextCode + 1, lastSeq := some x, lastNew := some x } := by
    unfold compressSym
    rw [if_neg (by omega), h.seq]
    dsimp only
    rw [hf]
    rfl
  refine ⟨_, hstep, rfl, rfl, fun inp => ⟨?_, ?_, ?_, rfl, .root hx, ?_, ?_, rfl, ?_⟩⟩
  · refine hi.push hqlen hx ?_
    intro j e he
    rw [h.rep.db] at hf
    exact cfind_none hf j e he
  · exact hi.toInvD
  · intro w hw
    injection hw with hw
    subst hw
    exact ⟨is, c0, u, h.path.congr hs.symm, rfl⟩
  · have := firstCode_lt; omega
  · refine ⟨?_, ?_, ?_, ?_⟩
    · show cinsert c.db _ _ = cdb (_ ++ [_])
      rw [cdb_push]
      unfold cinsert
      have hf' : cfind c.db (q, x) = none := hf
      rw [hf']
      dsimp only
      rw [h.rep.db, h.rep.next]
      rfl
    · show c.nextCode + 1 = (_ ++ [_]).length + firstCode
      rw [h.rep.next, List.length_append]
      simp only [List.length_cons, List.length_nil]
      show _ = (markPath (d.db ++ pend d.prev c0, d.ndb) is).1.length + (0 + 1) + firstCode
      omega
    · exact h.rep.ndb
    · exact h.rep.nnext
  · show some x = newOf _ x
    unfold newOf
    rw [if_pos hx]

/-- The dictionary is full: it is replaced. -/
theorem Mid.replace {c : Comp} {d : Dec} {c0 q : Nat} {u is : List Nat} (h : Mid c d c0 u q is) {x : Nat} (hx : x < firstCode)
    {i : Info} (hf : cfind c.db (q, x) = some i) (hi : i.next ≥ maxCode) : ∃ c', compressSym c x = .ok c' ∧
      c'.out = c.out ++ (wr q ++ wr optimizeCode) ∧ c'.utf8len = c.utf8len ∧
      ∀ inp, Mid c' { after d c0 q is inp with db := (after d c0 q is inp).ndb, ndb := [], prev := none } x [] x [] := by
  have hi' := (markPath_invC h.inv h.path).swap
  have hstep : compressSym c x = .ok { (c.write q).write optimizeCode with
      db := c.ndb, nextCode := c.nnext, ndb := [], nnext := firstCode, lastSeq := some x, lastNew := some x } := by
    unfold compressSym
    rw [if_neg (by omega), h.seq]
    dsimp only
    rw [hf]
    dsimp only
    rw [if_pos hi]
    rfl
  refine ⟨_, hstep, by simp [Comp.write], rfl, fun inp => ⟨?_, hi'.toInvD, ?_, rfl, .root hx, ?_, ?_, rfl, ?_⟩⟩
  · show InvC (_ ++ [], [])
    rw [List.append_nil]
    exact hi'
  · intro w hw; cases hw
  · have := firstCode_lt; omega
  · show Rep _ (_ ++ [], [])
    rw [List.append_nil]
    refine ⟨h.rep.ndb, h.rep.nnext, rfl, ?_⟩
    show firstCode = 0 + firstCode
    omega
  · show some x = newOf _ x
    unfold newOf
    rw [if_pos hx]

/-- The walk goes on. -/
theorem Mid.goOn {c : Comp} {d : Dec} {c0 q : Nat} {u is : List Nat} (h : Mid c d c0 u q is) {x : Nat} (hx : x < firstCode)
    {i : Info} (hf : cfind c.db (q, x) = some i) (hi : ¬ i.next ≥ maxCode) : ∃ c' q' j, compressSym c x = .ok c' ∧
      c'.out = c.out ∧ c'.utf8len = c.utf8len ∧ Mid c' d c0 (u ++ [x]) q' (is ++ [j]) := by
  have hinv := markPath_invC h.inv h.path
  have hs := shape_markPath is (d.db ++ pend d.prev c0, d.ndb)
  rw [h.rep.db] at hf
  obtain ⟨j, e, he, hk, rfl⟩ := cfind_some hf
  injection hk with hk1 hk2
  subst hk1 hk2
  obtain ⟨c', h1, h2, h3, h4, h5, h6⟩ := advance_eq h.rep hinv he (markPath_inv h.inv.toInvD h.path).2 h.new
  obtain ⟨e', he', e1, e2⟩ := shape_get hs he
  refine ⟨c', j + firstCode, j, ?_, h5, h6, h.inv, h.invd, h.prevOk, h.ready, ?_, ?_, ?_, h3, ?_⟩
  · unfold compressSym
    rw [if_neg (by omega), h.seq]
    dsimp only
    rw [h.rep.db, hf]
    dsimp only
    rw [if_neg hi]
    exact h1
  · rw [← e2]
    exact .step he' (by rw [e1]; exact h.path)
  · simp only at hi; omega
  · rw [markPath_append]; exact h2
  · rw [markPath_append]; exact h4

/-- All symbols. -/
def compressSyms (c : Comp) : List Nat → Res Comp
  | [] => .ok c
  | x :: l => do
    let c ← compressSym c x
    compressSyms c l

theorem flush_le : flushCode ≤ flushCode := Nat.le_refl _

theorem sync (l : List Nat) : ∀ (c : Comp) (d : Dec) (c0 q : Nat) (u is : List Nat), Mid c d c0 u q is → (∀ x ∈ l, x < firstCode) →
    ∃ c' tail, compressSyms c l = .ok c' ∧ c'.utf8len = c.utf8len ∧ finish c' = c.out ++ tail ∧ c'.lastSeq.isSome = true ∧
      ∀ rest d', Arr d' { d with inp := tail ++ rest } → ∃ e e' : Dec, Yields d' (c0 :: u ++ l) e ∧
        (∀ n, decomp { e with utf8len := n } = .ok (255, { e' with utf8len := n })) ∧ e'.inp = rest := by
  induction l with
  | nil =>
    intro c d c0 q u is h _
    refine ⟨c, wr q ++ wr flushCode, rfl, rfl, ?_, by rw [h.seq]; rfl, fun rest d' ha => ?_⟩
    · unfold finish
      rw [h.seq]
      simp [Comp.write]
    · rw [List.append_assoc] at ha
      rw [List.append_nil]
      refine ⟨_, { after d c0 q is rest with db := [], prev := none }, h.read ha, fun n => ?_, rfl⟩
      unfold decomp
      rw [decompress.eq_def]
      dsimp only [after]
      rw [readCode_wr flush_le]
      dsimp only
      rw [if_pos rfl]
  | cons x l ih =>
    intro c d c0 q u is h hl
    have hx := hl x List.mem_cons_self
    have hl' : ∀ y ∈ l, y < firstCode := fun y hy => hl y (List.mem_cons_of_mem _ hy)
    cases hf : cfind c.db (q, x) with
    | none =>
      obtain ⟨c1, h1, h2, h3, h4⟩ := h.notFound hx hf
      obtain ⟨c', tail, a1, a2, a3, a4, a5⟩ := ih c1 _ x x [] [] (h4 []) hl'
      refine ⟨c', wr q ++ tail, ?_, a2.trans h3, ?_, a4, fun rest d' ha => ?_⟩
      · unfold compressSyms; rw [h1]; exact a1
      · rw [a3, h2, List.append_assoc]
      · rw [List.append_assoc] at ha
        obtain ⟨e, e', b1, b2, b3⟩ := a5 rest _ (Arr.refl _)
        exact ⟨e, e', (h.read ha).append b1, b2, b3⟩
    | some i =>
      by_cases hi : i.next ≥ maxCode
      · obtain ⟨c1, h1, h2, h3, h4⟩ := h.replace hx hf hi
        obtain ⟨c', tail, a1, a2, a3, a4, a5⟩ := ih c1 _ x x [] [] (h4 []) hl'
        refine ⟨c', wr q ++ (wr optimizeCode ++ tail), ?_, a2.trans h3, ?_, a4, fun rest d' ha => ?_⟩
        · unfold compressSyms; rw [h1]; exact a1
        · rw [a3, h2]; simp
        · rw [List.append_assoc, List.append_assoc] at ha
          obtain ⟨e, e', b1, b2, b3⟩ := a5 rest { after d c0 q is [] with inp := wr optimizeCode ++ (tail ++ rest) }
            (Arr.optimize (after d c0 q is []) rfl (tail ++ rest))
          exact ⟨e, e', (h.read ha).append b1, b2, b3⟩
      · obtain ⟨c1, q', j, h1, h2, h3, h4⟩ := h.goOn hx hf hi
        obtain ⟨c', tail, a1, a2, a3, a4, a5⟩ := ih c1 d c0 q' (u ++ [x]) (is ++ [j]) h4 hl'
        refine ⟨c', tail, ?_, a2.trans h3, ?_, a4, fun rest d' ha => ?_⟩
        · unfold compressSyms; rw [h1]; exact a1
        · rw [a3, h2]
        · obtain ⟨e, e', b1, b2, b3⟩ := a5 rest d' ha
          refine ⟨e, e', ?_, b2, b3⟩
          simpa using b1

end Imt.Compr
