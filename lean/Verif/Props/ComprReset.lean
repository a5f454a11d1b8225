import Verif.Model.ComprReset
import Verif.Props.Compress
/-! # Property of the reset of the compressor and decompressor: C123 -/
namespace Imt.Props
open Imt Imt.Compr

/-- Keys and codes of a dictionary, without what the optimizer keeps there. -/
def bare (db : SeqDB) : List ((Nat × Nat) × Nat) := db.map fun e => (e.1, e.2.next)

/-- The optimizer of one compressor is in order. -/
structure OptOk (c : Comp) : Prop where
  used : ∀ e ∈ c.db, e.2.used = true → e.2.new ≠ none
  last : ∀ q, c.lastSeq = some q → c.lastNew = none → maxCodeForOptimize ≤ c.nnext

/-- Two compressors which write the same from now on, as long as the dictionary is not replaced. -/
structure Alike (p : Bytes) (a b : Comp) : Prop where
  seq : a.lastSeq = b.lastSeq
  next : a.nextCode = b.nextCode
  len : a.utf8len = b.utf8len
  out : a.out = p ++ b.out
  db : bare a.db = bare b.db
  below : ∀ e ∈ b.db, e.2.next < b.nextCode
  oka : OptOk a
  okb : OptOk b

theorem find_bare (db : SeqDB) (k : Nat × Nat) :
    (cfind db k).map (·.next) = ((bare db).find? (fun e => e.1 == k)).map (·.2) := by
  unfold cfind bare
  rw [List.find?_map, Option.map_map, Option.map_map]
  rfl

theorem cfind_mem {db : SeqDB} {k : Nat × Nat} {i : Info} (h : cfind db k = some i) : (k, i) ∈ db := by
  unfold cfind at h
  obtain ⟨e, h1, rfl⟩ := Option.map_eq_some_iff.1 h
  have h2 := List.find?_some h1
  have : e.1 = k := by simpa using h2
  rw [← this]
  exact List.mem_of_find?_eq_some h1

theorem bare_insert (db : SeqDB) (k : Nat × Nat) (i : Info) (h : cfind db k = none) :
    cinsert db k i = db ++ [(k, i)] := by
  unfold cinsert
  rw [h]

/-- `addCode` succeeds and touches only what the optimizer keeps; the pair has a new code if there was room. -/
theorem addCode_opt (c : Comp) (h : OptOk c) (q x : Nat) (hs : c.lastSeq = some q) (i : Info)
    (hf : cfind c.db (q, x) = some i) :
    ∃ c', addCode c (q, x) = .ok c' ∧ bare c'.db = bare c.db ∧ c'.lastSeq = c.lastSeq ∧ c'.nextCode = c.nextCode ∧
      c'.utf8len = c.utf8len ∧ c'.out = c.out ∧ (∀ e ∈ c'.db, e.2.used = true → e.2.new ≠ none) ∧
      ((cfind c'.db (q, x)).bind (·.new) = none → maxCodeForOptimize ≤ c'.nnext) := by
  unfold addCode
  by_cases hn : c.nnext < maxCodeForOptimize
  · rw [if_pos hn]
    cases hl : c.lastNew with
    | none => have := h.last q hs hl; omega
    | some n =>
      refine ⟨_, rfl, ?_, rfl, rfl, rfl, rfl, ?_, ?_⟩
      · unfold bare
        rw [List.map_map]
        refine List.map_congr_left fun e _ => ?_
        show ((if e.1 = (q, x) then (e.1, { e.2 with new := some c.nnext, used := true }) else e).1,
          (if e.1 = (q, x) then (e.1, { e.2 with new := some c.nnext, used := true }) else e).2.next) = _
        split <;> rfl
      · intro e he
        obtain ⟨e0, h0, rfl⟩ := List.mem_map.1 he
        split
        · intro _ h; cases h
        · exact h.used e0 h0
      · intro hb
        exfalso
        cases hc : cfind (c.db.map (fun e => if e.1 = (q, x) then
            (e.1, { e.2 with new := some c.nnext, used := true }) else e)) (q, x) with
        | none =>
          unfold cfind at hc
          rw [Option.map_eq_none_iff, List.find?_eq_none] at hc
          have := hc ((q, x), { i with new := some c.nnext, used := true })
            (List.mem_map.2 ⟨((q, x), i), cfind_mem hf, by rw [if_pos rfl]⟩)
          simp at this
        | some j =>
          have hm := cfind_mem hc
          obtain ⟨e0, _, h1⟩ := List.mem_map.1 hm
          split at h1
          · have : j.new = some c.nnext := by
              have := congrArg (fun z => z.2.new) h1
              exact this.symm
            have hb : (cfind (c.db.map (fun e => if e.1 = (q, x) then
              (e.1, { e.2 with new := some c.nnext, used := true }) else e)) (q, x)).bind (·.new) = none := hb
            rw [hc] at hb
            have hb : j.new = none := hb
            rw [this] at hb
            cases hb
          · next hne => rw [h1] at hne; exact hne rfl
  · rw [if_neg hn]
    exact ⟨c, rfl, rfl, rfl, rfl, rfl, rfl, h.used, fun _ => by omega⟩

theorem advance_opt (c : Comp) (h : OptOk c) (q x : Nat) (hs : c.lastSeq = some q) (i : Info)
    (hf : cfind c.db (q, x) = some i) :
    ∃ c', advance c (q, x) i = .ok c' ∧ bare c'.db = bare c.db ∧ c'.lastSeq = some i.next ∧ c'.nextCode = c.nextCode ∧
      c'.utf8len = c.utf8len ∧ c'.out = c.out ∧ OptOk c' := by
  unfold advance
  by_cases hu : i.used = true
  · rw [if_pos hu, Res.bind_ok]
    refine ⟨_, rfl, rfl, rfl, rfl, rfl, rfl, h.used, fun _ _ hn => ?_⟩
    have hn : (cfind c.db (q, x)).bind (·.new) = none := hn
    rw [hf] at hn
    exact absurd hn (h.used _ (cfind_mem hf) hu)
  · rw [if_neg hu]
    obtain ⟨c', h1, h2, h3, h4, h5, h6, h7, h8⟩ := addCode_opt c h q x hs i hf
    rw [h1, Res.bind_ok]
    exact ⟨_, rfl, h2, rfl, h4, h5, h6, h7, fun _ _ hn => h8 hn⟩

theorem below_of_bare {d e : SeqDB} (h : bare d = bare e) {n : Nat} (hb : ∀ x ∈ e, x.2.next < n) :
    ∀ x ∈ d, x.2.next < n := by
  intro x hx
  have : (x.1, x.2.next) ∈ bare d := List.mem_map_of_mem (f := fun e : (Nat × Nat) × Info => (e.1, e.2.next)) hx
  rw [h] at this
  obtain ⟨y, hy, he⟩ := List.mem_map.1 this
  have : y.2.next = x.2.next := congrArg (·.2) he
  rw [← this]
  exact hb y hy

/-- The same symbol on both sides. -/
theorem alike_sym {p : Bytes} {a b : Comp} (h : Alike p a b) (x : Nat) (hb : b.nextCode ≤ maxCode) :
    (compressSym a x = .err ∧ compressSym b x = .err) ∨
    ∃ a' b', compressSym a x = .ok a' ∧ compressSym b x = .ok b' ∧ Alike p a' b' ∧ b'.nextCode ≤ b.nextCode + 1 := by
  unfold compressSym
  by_cases hx : x ≥ firstCode
  · rw [if_pos hx, if_pos hx]; exact .inl ⟨rfl, rfl⟩
  rw [if_neg hx, if_neg hx, h.seq]
  right
  cases hs : b.lastSeq with
  | none =>
    exact ⟨_, _, rfl, rfl, ⟨rfl, h.next, h.len, h.out, h.db, h.below, ⟨h.oka.used, fun _ _ hn => by cases hn⟩,
      ⟨h.okb.used, fun _ _ hn => by cases hn⟩⟩, Nat.le_succ _⟩
  | some q =>
    have hsa : a.lastSeq = some q := h.seq.trans hs
    dsimp only
    have hfe : (cfind a.db (q, x)).map (·.next) = (cfind b.db (q, x)).map (·.next) := by
      rw [find_bare, find_bare, h.db]
    cases hfb : cfind b.db (q, x) with
    | none =>
      have hfa : cfind a.db (q, x) = none := by
        rw [hfb] at hfe
        exact Option.map_eq_none_iff.1 hfe
      rw [hfa]
      dsimp only
      refine ⟨_, _, rfl, rfl, ⟨rfl, ?_, h.len, ?_, ?_, ?_, ⟨?_, fun _ _ hn => by cases hn⟩,
        ⟨?_, fun _ _ hn => by cases hn⟩⟩, Nat.le_refl _⟩
      · show a.nextCode + 1 = b.nextCode + 1
        rw [h.next]
      · show a.out ++ wr q = p ++ (b.out ++ wr q)
        rw [h.out, List.append_assoc]
      · show bare (cinsert a.db (q, x) { next := a.nextCode }) = bare (cinsert b.db (q, x) { next := b.nextCode })
        rw [bare_insert _ _ _ hfa, bare_insert _ _ _ hfb]
        show (a.db ++ [_]).map _ = (b.db ++ [_]).map _
        rw [List.map_append, List.map_append]
        exact congr (congrArg (· ++ ·) h.db) (by rw [h.next])
      · show ∀ e ∈ cinsert b.db (q, x) { next := b.nextCode }, e.2.next < b.nextCode + 1
        rw [bare_insert _ _ _ hfb]
        intro e he
        rcases List.mem_append.1 he with he | he
        · have := h.below e he; omega
        · rw [List.mem_singleton.1 he]; exact Nat.lt_succ_self _
      · show ∀ e ∈ cinsert a.db (q, x) { next := a.nextCode }, _
        rw [bare_insert _ _ _ hfa]
        intro e he
        rcases List.mem_append.1 he with he | he
        · exact h.oka.used e he
        · rw [List.mem_singleton.1 he]; intro hu; cases hu
      · show ∀ e ∈ cinsert b.db (q, x) { next := b.nextCode }, _
        rw [bare_insert _ _ _ hfb]
        intro e he
        rcases List.mem_append.1 he with he | he
        · exact h.okb.used e he
        · rw [List.mem_singleton.1 he]; intro hu; cases hu
    | some i =>
      rw [hfb] at hfe
      obtain ⟨j, hfa, hj⟩ := Option.map_eq_some_iff.1 hfe
      rw [hfa]
      dsimp only
      have hi : i.next < maxCode := Nat.lt_of_lt_of_le (h.below _ (cfind_mem hfb)) hb
      rw [if_neg (by rw [hj]; exact Nat.not_le.2 hi), if_neg (Nat.not_le.2 hi)]
      obtain ⟨a', a1, a2, a3, a4, a5, a6, a7⟩ := advance_opt a h.oka q x hsa j hfa
      obtain ⟨b', b1, b2, b3, b4, b5, b6, b7⟩ := advance_opt b h.okb q x hs i hfb
      refine ⟨a', b', a1, b1, ⟨by rw [a3, b3, hj], by rw [a4, b4, h.next], by rw [a5, b5, h.len],
        by rw [a6, b6, h.out], by rw [a2, b2, h.db], ?_, a7, b7⟩, by omega⟩
      rw [b4]
      exact below_of_bare b2 h.below

theorem Alike.cu {p : Bytes} {a b : Comp} (h : Alike p a b) (n : Nat) : Alike p (cu n a) (cu n b) :=
  ⟨h.seq, h.next, rfl, h.out, h.db, h.below, ⟨h.oka.used, h.oka.last⟩, ⟨h.okb.used, h.okb.last⟩⟩

theorem alike_two {p : Bytes} {a b : Comp} (h : Alike p a b) (x y n : Nat) (hb : b.nextCode + 1 ≤ maxCode) :
    (compress2 a x y n = .err ∧ compress2 b x y n = .err) ∨
    ∃ a' b', compress2 a x y n = .ok a' ∧ compress2 b x y n = .ok b' ∧ Alike p a' b' ∧
      b'.nextCode ≤ b.nextCode + 2 := by
  unfold compress2
  rcases alike_sym h x (by omega) with ⟨h1, h2⟩ | ⟨a1, b1, h1, h2, h3, h4⟩
  · rw [h1, h2]; exact .inl ⟨rfl, rfl⟩
  · rw [h1, h2, Res.bind_ok, Res.bind_ok]
    rcases alike_sym h3 y (by omega) with ⟨g1, g2⟩ | ⟨a2, b2, g1, g2, g3, g4⟩
    · rw [g1, g2]; exact .inl ⟨rfl, rfl⟩
    · rw [g1, g2]
      refine .inr ⟨_, _, rfl, rfl, g3.cu n, ?_⟩
      show b2.nextCode ≤ _
      omega

theorem alike_put {p : Bytes} {a b : Comp} (h : Alike p a b) (c : Nat) (hb : b.nextCode + 1 ≤ maxCode) :
    (put a c = .err ∧ put b c = .err) ∨
    ∃ a' b', put a c = .ok a' ∧ put b c = .ok b' ∧ Alike p a' b' ∧ b'.nextCode ≤ b.nextCode + 2 := by
  have one : ∀ {a b : Comp} (_ : Alike p a b) (x : Nat) (_ : b.nextCode + 1 ≤ maxCode),
      (compressSym a x = .err ∧ compressSym b x = .err) ∨
      ∃ a' b', compressSym a x = .ok a' ∧ compressSym b x = .ok b' ∧ Alike p a' b' ∧
        b'.nextCode ≤ b.nextCode + 2 := by
    intro a b h x hb
    rcases alike_sym h x (by omega) with h1 | ⟨a1, b1, h1, h2, h3, h4⟩
    · exact .inl h1
    · exact .inr ⟨a1, b1, h1, h2, h3, by omega⟩
  unfold put
  rw [h.len]
  split
  · exact one (h.cu _) _ hb
  split
  · split
    · exact alike_two h _ _ _ hb
    split
    · exact alike_two h _ _ _ hb
    split
    · exact alike_two h _ _ _ hb
    split
    · exact alike_two h _ _ _ hb
    · exact .inl ⟨rfl, rfl⟩
  split
  · exact .inl ⟨rfl, rfl⟩
  · exact one h _ hb

theorem alike_all (l : Bytes) : ∀ {p : Bytes} {a b : Comp}, Alike p a b → b.nextCode + 2 * l.length ≤ maxCode →
    (putAll a l = .err ∧ putAll b l = .err) ∨ ∃ a' b', putAll a l = .ok a' ∧ putAll b l = .ok b' ∧ Alike p a' b' := by
  induction l with
  | nil => exact fun h _ => .inr ⟨_, _, rfl, rfl, h⟩
  | cons c l ih =>
    intro p a b h hb
    rw [List.length_cons] at hb
    rw [putAll, putAll]
    rcases alike_put h c (by omega) with ⟨h1, h2⟩ | ⟨a1, b1, h1, h2, h3, h4⟩
    · rw [h1, h2]; exact .inl ⟨rfl, rfl⟩
    · rw [h1, h2, Res.bind_ok, Res.bind_ok]
      exact ih h3 (by omega)

theorem alike_finish {p : Bytes} {a b : Comp} (h : Alike p a b) : finish a = p ++ finish b := by
  unfold finish
  rw [h.seq]
  cases b.lastSeq with
  | none => exact h.out
  | some q =>
    show (a.out ++ wr q) ++ wr flushCode = p ++ ((b.out ++ wr q) ++ wr flushCode)
    rw [h.out, List.append_assoc, List.append_assoc, List.append_assoc]

/-- **C123 (partial).** A compressor reset between two characters, whatever it compressed before, writes for the next
text exactly what a new compressor writes, or reports the error the new one reports - for texts too short to fill the
dictionary. Missing: longer texts (the next dictionary, which the optimizer prepares, is not emptied by the reset) and a
reset in the middle of a character, for which the claim fails. -/
theorem C123_compressor_partial (c : Comp) (hu : c.utf8len = 0) (l : Bytes)
    (hl : firstCode + 2 * l.length ≤ maxCode) :
    (putAll c.reset l = .err ∧ compressAll l = .err) ∨
    ∃ c' out, putAll c.reset l = .ok c' ∧ compressAll l = .ok out ∧ finish c' = c.out ++ out := by
  have h : Alike c.out c.reset {} := ⟨rfl, rfl, hu, (List.append_nil _).symm, rfl, (fun e he => by cases he),
    ⟨(fun e he => by cases he), (fun q hq => by cases hq)⟩, ⟨(fun e he => by cases he), (fun q hq => by cases hq)⟩⟩
  unfold compressAll
  rcases alike_all l h hl with ⟨h1, h2⟩ | ⟨a, b, h1, h2, h3⟩
  · rw [h1, h2]; exact .inl ⟨rfl, rfl⟩
  · rw [h1, h2]; exact .inr ⟨a, _, rfl, rfl, alike_finish h3⟩

example : ∃ c, putAll {} [0x61, 0x61, 0x61, 0x61, 0xC3, 0xA9] = .ok c ∧ c.utf8len = 0 ∧ c.db ≠ [] ∧
    firstCode + 2 * [0x61, 0x62].length ≤ maxCode := ⟨_, by rfl, by rfl, by decide, by decide⟩

/-- **C123 (partial).** The text written after such a reset is decompressed to the text. -/
theorem C123_trip_partial (c : Comp) (hu : c.utf8len = 0) (l : Bytes) (h : Spec.WellFormedUtf8 l)
    (hc : ∀ b ∈ l, 32 ≤ b) (hl : firstCode + 2 * l.length ≤ maxCode) :
    ∃ c' out d, putAll c.reset l = .ok c' ∧ finish c' = c.out ++ out ∧
      getAll (l.length + 1) { inp := out } = .ok (l, d) := by
  obtain ⟨out, d, h1, h2⟩ := C50_round_trip l h hc
  rcases C123_compressor_partial c hu l hl with ⟨_, h3⟩ | ⟨c', out', h3, h4, h5⟩
  · rw [h3] at h1; cases h1
  · rw [h4] at h1
    have : out' = out := by cases h1; rfl
    subst this
    exact ⟨c', out', d, h3, h5, h2⟩

/-- What the compressor writes after a reset. -/
def afterReset (a b : Bytes) : Res Bytes := do
  let c ← putAll {} a
  let d ← putAll { c.reset with out := [] } b
  .ok (finish d)

/-- **C123 violated.** A compressor reset after the first byte of a two-byte character takes the first character of the
next text for the rest of that character: `A` is written as the code of `[`. -/
theorem C123_violation_character : afterReset [0xC3] [0x41] = .ok [0x41, 255, 255] ∧
    compressAll [0x41] = .ok [0x41 - 26, 255, 255] ∧ ∃ d, getAll 2 { inp := [0x41, 255, 255] } = .ok ([0x5B], d) :=
  ⟨by decide +kernel, by decide +kernel, res_fst (by decide +kernel)⟩

/-- The reset leaves the dictionary the optimizer prepares for later: it is not the one of a new compressor. -/
theorem C123_leftover (c : Comp) : c.reset.ndb = c.ndb ∧ c.reset.nnext = c.nnext := ⟨rfl, rfl⟩

example : ∃ c, putAll {} [0x61, 0x61, 0x61, 0x61] = .ok c ∧ c.utf8len = 0 ∧ c.ndb ≠ ({} : Comp).ndb ∧
    c.nnext ≠ ({} : Comp).nnext := ⟨_, by rfl, by rfl, by decide, by decide⟩

/-- Two characters are read from the first input, then the decompressor is reset and goes on with the second. -/
def readReset (a b : Bytes) : Res (Bytes × Dec) := do
  let r ← get { inp := a }
  let r ← get r.2
  getAll 5 { r.2.reset with inp := b }

/-- **C123 violated.** A decompressor reset between the characters of a sequence returns the rest of the sequence
before the next text: of `aaa` two characters are read, then `b` is read as `ab`. -/
theorem C123_violation_decompressor : compressAll [0x61, 0x61, 0x61] = .ok [71, 102, 255, 255] ∧
    compressAll [0x62] = .ok [72, 255, 255] ∧
    ∃ d, readReset [71, 102, 255, 255] [72, 255, 255] = .ok ([0x61, 0x62], d) :=
  ⟨by decide +kernel, by decide +kernel, res_fst (by decide +kernel)⟩

end Imt.Props
