import Verif.Props.Binary
import Verif.Model.StrMem
/-! # Properties of strings in memory: C130 – C134 -/
namespace Imt.Props
open Imt Imt.StrMem

/-! ## Blocks -/

/-- The characters a C string function sees: everything before the first zero. -/
def beforeZero (s : Bytes) : Bytes := s.takeWhile (· ≠ 0)

theorem beforeZero_self {s : Bytes} (h : 0 ∉ s) : beforeZero s = s := by
  unfold beforeZero
  rw [List.takeWhile_eq_self_iff]
  intro x hx
  simp only [decide_eq_true_eq]
  intro e
  exact h (e ▸ hx)

theorem put_at (pre mid post : Block) (s : Bytes) (h : s.length = mid.length) :
    StrMem.put (pre ++ mid ++ post) pre.length s = .ok (pre ++ s.map some ++ post) := by
  unfold StrMem.put
  rw [if_pos (by simp [h])]
  congr 1
  have e1 : (pre ++ mid ++ post).take pre.length = pre := by simp
  have e2 : (pre ++ mid ++ post).drop (pre.length + s.length) = post := by
    rw [h, ← List.length_append, List.drop_left']
    rfl
  rw [e1, e2]

theorem put_split (b : Block) (p : Nat) (s : Bytes) (h : p + s.length ≤ b.length) :
    StrMem.put b p s = .ok (b.take p ++ s.map some ++ b.drop (p + s.length)) := by
  unfold StrMem.put; rw [if_pos h]

theorem alloc_ok (n : Nat) : ∃ b, StrMem.alloc n = .ok b ∧ b.length = max (n + 1) 7 ∧ b.take 7 = StrMem.magic.map some := by
  have hm : StrMem.magic.length = 7 := rfl
  unfold StrMem.alloc
  rw [put_split _ _ _ (by simp [hm]; omega)]
  refine ⟨_, rfl, ?_, ?_⟩
  · simp [hm]; omega
  · simp [hm]

theorem newCopy_ok (s : Bytes) : ∃ rest, StrMem.newCopy s.length s = .ok (s.map some ++ some 0 :: rest, s.length) := by
  obtain ⟨b, e, hl, hm⟩ := alloc_ok s.length
  unfold StrMem.newCopy
  rw [e]
  simp only [Res.bind_ok]
  rw [if_neg (by rw [show StrMem.magic.length = 7 from rfl, hm]; simp)]
  rw [put_split _ _ _ (by omega)]
  simp only [Res.bind_ok, List.take_zero, List.nil_append, Nat.zero_add]
  rw [put_split _ _ _ (by simp; omega)]
  refine ⟨b.drop (s.length + 1), ?_⟩
  simp only [Res.bind_ok, Res.pure_eq]
  congr 2
  rw [List.take_left' (by simp), List.drop_append, List.drop_eq_nil_of_le (by simp : (s.map some).length ≤ s.length + [0].length)]
  simp

theorem get_at (pre post : Block) (c : Nat) : StrMem.get (pre ++ some c :: post) pre.length = .ok c := by
  unfold StrMem.get
  simp

theorem readN_at (s : Bytes) : ∀ (pre post : Block), StrMem.readN (pre ++ s.map some ++ post) pre.length s.length = .ok s := by
  induction s with
  | nil => intro pre post; rfl
  | cons c s ih =>
    intro pre post
    have e := get_at pre (s.map some ++ post) c
    have e2 := ih (pre ++ [some c]) post
    simp only [List.map_cons, List.length_cons, List.append_assoc, List.cons_append, List.nil_append, List.length_append,
      List.length_nil, Nat.zero_add] at e e2 ⊢
    rw [StrMem.readN, e, Res.bind_ok, e2]
    rfl

/-- A scan for the terminator that finds none before the end of the block is undefined. -/
example : StrMem.readZ [some 65, some 66] 0 2 = .ub := by decide

theorem readZ_at (s : Bytes) : ∀ (pre post : Block) (n : Nat), n > s.length →
    StrMem.readZ (pre ++ s.map some ++ some 0 :: post) pre.length n = .ok (beforeZero s) := by
  induction s with
  | nil =>
    intro pre post n h
    obtain ⟨m, rfl⟩ : ∃ m, n = m + 1 := ⟨n - 1, by simp at h; omega⟩
    have e := get_at pre post 0
    simp only [List.map_nil, List.append_nil]
    rw [StrMem.readZ, e]
    rfl
  | cons c s ih =>
    intro pre post n h
    obtain ⟨m, rfl⟩ : ∃ m, n = m + 1 := ⟨n - 1, by simp at h; omega⟩
    have e := get_at pre (s.map some ++ some 0 :: post) c
    have e2 := ih (pre ++ [some c]) post m (by simp at h; omega)
    simp only [List.map_cons, List.length_cons, List.append_assoc, List.cons_append, List.nil_append, List.length_append,
      List.length_nil, Nat.zero_add] at e e2 ⊢
    rw [StrMem.readZ, e, Res.bind_ok, e2]
    unfold beforeZero
    by_cases hc : c = 0
    · subst hc; simp
    · simp [hc]

/-! ## Objects -/

/-- The object is a view of `s` in memory, and between the end of the view and the terminating zero there is `post`. -/
inductive Holds : Obj → Bytes → Bytes → Prop
  | str (id : Nat) (enc : Option Binary.Coder) (s : Bytes) (rest : Block) :
      Holds (.str id enc (s.map some ++ some 0 :: rest) s.length) s []
  | sub (id : Nat) (o : Obj) (s post : Bytes) (pos len : Nat) (h : Holds o s post) :
      Holds (.sub id o pos len) ((s.drop pos).take len) ((s.drop pos).drop len ++ post)
  | keyed (id : Nat) (o : Obj) (s post : Bytes) (h : Holds o s post) : Holds (.keyed id o) s post

theorem holds_view {o : Obj} {s post : Bytes} (h : Holds o s post) : ∃ id pre rest,
    o.getString = ⟨some (id, pre ++ (s ++ post).map some ++ some 0 :: rest, pre.length), s.length⟩ ∧ id ∈ o.keeps := by
  induction h with
  | str id enc s rest => exact ⟨id, [], rest, by simp [Obj.getString], by simp [Obj.keeps]⟩
  | keyed id o s post h ih =>
    obtain ⟨i, pre, rest, e, hk⟩ := ih
    exact ⟨i, pre, rest, e, by simp [Obj.keeps, hk]⟩
  | sub id o s post pos len h ih =>
    obtain ⟨i, pre, rest, e, hk⟩ := ih
    refine ⟨i, pre ++ (s.take pos).map some, rest, ?_, by simp [Obj.keeps, hk]⟩
    rw [Obj.getString, e]
    unfold View.substr
    simp only [Option.map_some]
    have e1 : s ++ post = s.take pos ++ (List.take len (List.drop pos s) ++ (List.drop len (List.drop pos s) ++ post)) := by
      rw [← List.append_assoc (List.take len _), List.take_append_drop, ← List.append_assoc, List.take_append_drop]
    congr 1
    · congr 1
      refine Prod.ext rfl (Prod.ext ?_ ?_)
      · show pre ++ (s ++ post).map some ++ some 0 :: rest = _
        conv => lhs; rw [e1]
        simp only [List.map_append, List.append_assoc]
      · show pre.length + min pos s.length = _
        simp
    · simp; omega

theorem holds_text {o : Obj} {s post : Bytes} (h : Holds o s post) : o.text = .ok s := by
  obtain ⟨id, pre, rest, e, hk⟩ := holds_view h
  unfold Obj.text useN
  rw [e]
  split
  · next h0 => rw [List.length_eq_zero_iff.mp h0]
  · simp only [hk, if_true]
    have := readN_at s pre (post.map some ++ some 0 :: rest)
    simpa using this

theorem holds_useN {o : Obj} {s post : Bytes} (h : Holds o s post) : useN o.keeps (cStr o) (length o) = .ok s := holds_text h

theorem holds_length {o : Obj} {s post : Bytes} (h : Holds o s post) : StrMem.length o = s.length := by
  obtain ⟨id, pre, rest, e, hk⟩ := holds_view h
  unfold StrMem.length
  rw [e]

theorem holds_useZ {o : Obj} {s post : Bytes} (h : Holds o s post) : useZ o.keeps (cStr o) = .ok (beforeZero (s ++ post)) := by
  obtain ⟨id, pre, rest, e, hk⟩ := holds_view h
  unfold cStr useZ
  rw [e]
  simp only [hk, if_true]
  exact readZ_at (s ++ post) pre rest _ (by simp)

theorem holds_unproxy {o : Obj} {s post : Bytes} (h : Holds o s post) : Holds o.unproxy s post := by
  induction h with
  | str id enc s rest => exact .str id enc s rest
  | keyed id o s post h ih => exact ih
  | sub id o s post pos len h ih => exact .sub id o s post pos len h

theorem unproxy_view (o : Obj) : o.unproxy.getString = o.getString := by
  induction o with
  | keyed id v ih => simpa [Obj.unproxy, Obj.getString] using ih
  | _ => rfl

theorem holds_create (id : Nat) {s : Bytes} (h : s ≠ []) : ∃ o, create id s = .ok o ∧ Holds o s [] ∧ o.keeps = [id] ∧
    o.encoding = none ∧ o.isString = true := by
  obtain ⟨rest, e⟩ := newCopy_ok s
  unfold create
  rw [if_neg h, e]
  exact ⟨_, rfl, .str id none s rest, rfl, rfl, rfl⟩

theorem holds_createBin (id : Nat) (c : Binary.Coder) (s : Bytes) : ∃ o, createBin id c s = .ok o ∧ Holds o s [] ∧
    o.keeps = [id] ∧ o.encoding = some c ∧ o.isString = true := by
  obtain ⟨rest, e⟩ := newCopy_ok s
  unfold createBin
  rw [e]
  exact ⟨_, rfl, .str id _ s rest, rfl, rfl, rfl⟩

/-! ## C130 -/

/-- C130 (partial): a non-empty string made from characters, used directly or as a member of an object, gives them back
as a view and, if none of them is zero, as a C string. Missing: the empty string (`C130_violation_empty`) and parts of
strings (`C130_violation_part`). -/
theorem C130_created_partial (id k : Nat) (s : Bytes) (h : s ≠ []) (h0 : 0 ∉ s) : ∃ o, create id s = .ok o ∧
    o.text = .ok s ∧ useZ o.keeps (cStr o) = .ok s ∧
    useZ (Obj.keyed k o).keeps (cStr (ofValue (.keyed k o))) = .ok s := by
  obtain ⟨o, e, ho, hk, -, -⟩ := holds_create id h
  refine ⟨o, e, holds_text ho, ?_, ?_⟩
  · rw [holds_useZ ho, List.append_nil, beforeZero_self h0]
  · have hv : cStr (ofValue (.keyed k o)) = cStr (.keyed k o) := by
      unfold cStr ofValue
      rw [unproxy_view]
    rw [hv, holds_useZ (.keyed k o s [] ho), List.append_nil, beforeZero_self h0]

example : (ascii "abc") ≠ [] ∧ 0 ∉ ascii "abc" := by decide

/-- C130: the pointer with the length gives the characters, and as a C string the pointer gives the characters up to the
first zero in the view or behind it, for every object holding characters: strings, parts of strings, parts of parts, with
and without a key. -/
theorem C130_exact (o : Obj) (s post : Bytes) (h : Holds o s post) :
    useN o.keeps (cStr o) (StrMem.length o) = .ok s ∧ useZ o.keeps (cStr o) = .ok (beforeZero (s ++ post)) :=
  ⟨holds_useN h, holds_useZ h⟩

example : Holds (.sub 2 (.str 1 none ((ascii "a,b").map some ++ some 0 :: []) 3) 0 1) (ascii "a") (ascii ",b") :=
  .sub 2 _ (ascii "a,b") [] 0 1 (.str 1 none (ascii "a,b") [])

/-- C130 does not hold for parts of strings: for every part that does not reach the end of its string, `c_str` gives the
rest of the whole string instead of the part. -/
theorem C130_violation_part (id k : Nat) (s : Bytes) (pos len : Nat) (h0 : 0 ∉ s) (h : pos + len < s.length) :
    ∃ o, create id s = .ok o ∧ (Obj.sub k o pos len).text = .ok ((s.drop pos).take len) ∧
      useZ (Obj.sub k o pos len).keeps (cStr (.sub k o pos len)) = .ok (s.drop pos) ∧ (s.drop pos).take len ≠ s.drop pos := by
  obtain ⟨o, e, ho, -, -, -⟩ := holds_create id (s := s) (by intro e; subst e; simp at h)
  have hs := Holds.sub k o s [] pos len ho
  refine ⟨o, e, holds_text hs, ?_, ?_⟩
  · rw [holds_useZ hs, List.append_nil, List.take_append_drop, beforeZero_self]
    intro hm
    exact h0 (List.mem_of_mem_drop hm)
  · intro e
    have := congrArg List.length e
    simp at this
    omega

example : 0 ∉ ascii "a,b" ∧ 0 + 1 < (ascii "a,b").length := by decide

/-- C130 does not hold: the first part of `"a,b"` split at the comma is `"a"`, its `c_str` reads `"a,b"`. -/
theorem C130_violation_split : (create 1 (ascii "a,b")).bind (fun o =>
      match splitLoop o (ascii "a,b") (ascii ",") (· + 2) 10 0 with
      | p :: _ => p.text.bind (fun t => (useZ p.keeps (cStr p)).bind (fun z => .ok (t, z)))
      | [] => .err) = .ok (ascii "a", ascii "a,b") := by
  decide +kernel

/-- C130 does not hold for the empty string, nor for a `String` made from another value: `c_str` is a null pointer. With the length, which
is zero, nothing is read. -/
theorem C130_violation_empty (id k : Nat) (live : List Nat) : create id [] = .ok .empty ∧ useZ live (cStr .empty) = .ub ∧
    useZ live (cStr (ofValue (.keyed k .empty))) = .ub ∧ useZ live (cStr (ofValue (.plain id))) = .ub ∧
    Obj.text .empty = .ok [] ∧ Obj.text (ofValue (.plain id)) = .ok [] :=
  ⟨rfl, rfl, rfl, rfl, rfl, rfl⟩

/-! ## C131 -/

/-- C131 (partial): with a pointer to characters as the default, `getValueOrDefault` of a plain string gives the pointer
of the string, usable while the value is held, and of anything but a string the default. Missing: strings with a binary
encoding (`C131_violation_binary`); the zero behind the characters (C130). -/
theorem C131_plain_partial (fresh : Nat) (v : Obj) (s post : Bytes) (d : Ptr) (h : Holds v s post) (hs : v.isString)
    (hb : v.encoding = none) : ∃ p, orCStr fresh v d = .ok p ∧ useN v.keeps p s.length = .ok s ∧
      useZ v.keeps p = .ok (beforeZero (s ++ post)) := by
  refine ⟨cStr v, ?_, ?_, holds_useZ h⟩
  · unfold orCStr toStr ofValue cStr
    rw [if_pos hs, hb]
    simp only [Res.bind_ok, Res.pure_eq, unproxy_view]
  · rw [← holds_length h]
    exact holds_useN h

theorem C131_default (fresh : Nat) (v : Obj) (d : Ptr) (h : v.isString = false) : orCStr fresh v d = .ok d := by
  unfold orCStr; rw [h]; rfl

example : (Obj.keyed 2 (.plain 1)).isString = false := rfl

example : ∃ v s post, Holds v s post ∧ v.isString ∧ v.encoding = none ∧ s ≠ [] :=
  ⟨_, _, _, .keyed 2 _ _ _ (.str 1 none (ascii "abc") []), rfl, rfl, by decide⟩

theorem newFill_write (n : Nat) (w : Bytes) (r : Nat) (h : w.length ≤ n) (hr : r ≤ w.length) : ∃ rest,
    newFill n (fun b => do
      let b ← StrMem.put b 0 w
      pure (b, r)) = .ok ((w.take r).map some ++ some 0 :: rest, r) := by
  obtain ⟨b, e, hl, -⟩ := alloc_ok n
  unfold newFill
  rw [e]
  simp only [Res.bind_ok]
  rw [put_split _ _ _ (by simp; omega)]
  simp only [Res.bind_ok, Res.pure_eq]
  rw [put_split _ _ _ (by simp; omega)]
  simp only [Res.bind_ok, List.take_zero, List.nil_append, Nat.zero_add]
  rw [if_neg (by omega)]
  have hz : StrMem.get (w.map some ++ List.drop w.length (b.take n ++ [0].map some ++ b.drop (n + [0].length))) n = .ok 0 := by
    unfold StrMem.get
    rw [List.getElem?_append_right (by simp; omega), List.getElem?_drop]
    have e1 : w.length + (n - (w.map some).length) = n := by simp; omega
    rw [e1, List.append_assoc, List.getElem?_append_right (by simp; omega)]
    have e2 : n - (b.take n).length = 0 := by simp; omega
    rw [e2]
    rfl
  rw [hz]
  simp only [Res.bind_ok]
  rw [if_neg (by simp), put_split _ _ _ (by simp; omega)]
  simp only [Res.bind_ok]
  have hB : (w.map some ++ List.drop w.length (b.take n ++ [0].map some ++ b.drop (n + [0].length))).take r = (w.take r).map some := by
    rw [List.take_append_of_le_length (by simp; omega), List.map_take]
  generalize w.map some ++ List.drop w.length (b.take n ++ [0].map some ++ b.drop (n + [0].length)) = B at *
  refine ⟨B.drop (r + 1), ?_⟩
  rw [hB, List.append_assoc]
  rfl

/-- C131 does not hold for strings with a binary encoding: the pointer is into an object which is released before the
caller gets it, whatever the encoding and the contents. -/
theorem C131_violation_binary (fresh : Nat) (v : Obj) (s post t : Bytes) (c : Binary.Coder) (d : Ptr) (h : Holds v s post)
    (hs : v.isString) (hb : v.encoding = some c) (ht : c.encode s = .ok t) (hf : fresh ∉ v.keeps) :
    ∃ p, orCStr fresh v d = .ok p ∧ useZ v.keeps p = .ub := by
  have hc : ∃ o, toStr fresh v = .ok o ∧ (o.getString.data = none ∨ ∃ b k, o.getString.data = some (fresh, b, k)) := by
    unfold toStr
    rw [hb]
    simp only [holds_text h, Res.bind_ok, ht]
    have hcr : ∃ o, create fresh t = .ok o ∧ (o.getString.data = none ∨ ∃ b k, o.getString.data = some (fresh, b, k)) := by
      by_cases h0 : t = []
      · exact ⟨.empty, by rw [h0]; rfl, .inl rfl⟩
      · obtain ⟨rest, e⟩ := newCopy_ok t
        unfold create
        rw [if_neg h0, e]
        exact ⟨_, rfl, .inr ⟨_, _, rfl⟩⟩
    cases c with
    | utf8 =>
      obtain ⟨rest, e⟩ := newFill_write t.length t t.length (Nat.le_refl _) (Nat.le_refl _)
      simp only [e, Res.bind_ok]
      exact ⟨_, rfl, .inr ⟨_, _, rfl⟩⟩
    | base64 | base64url | url | direct => exact hcr
  obtain ⟨o, e, ho⟩ := hc
  unfold orCStr
  rw [if_pos hs, e]
  refine ⟨_, rfl, ?_⟩
  unfold cStr useZ
  rcases ho with ho | ⟨b, k, ho⟩ <;> rw [ho]
  simp [hf]

example : ∃ v s post t, Holds v s post ∧ v.isString ∧ v.encoding = some .base64 ∧ Binary.Coder.base64.encode s = .ok t ∧
    7 ∉ v.keeps :=
  ⟨_, _, _, ascii "YWJj", .str 1 (some .base64) (ascii "abc") [], rfl, rfl, by decide +kernel, by decide⟩

/-- C131 does not hold: the pointer for the bytes `"abc"` in base64 is dangling. -/
theorem C131_violation_base64 : (createBin 1 .base64 (ascii "abc")).bind (fun v =>
    (orCStr 7 v none).bind (useZ v.keeps)) = .ub := by
  decide +kernel

/-! ## C132 -/

/-- C132: `String(sz, fn)` with a function which writes at most `sz` characters and returns how many of them it wants
kept gives these characters, followed by a zero. -/
theorem C132_filled (id sz : Nat) (w : Bytes) (r : Nat) (h : w.length ≤ sz) (hr : r ≤ w.length) : ∃ o,
    ofFill id sz (fun b => do
      let b ← StrMem.put b 0 w
      pure (b, r)) = .ok o ∧ o.text = .ok (w.take r) ∧ useZ o.keeps (cStr o) = .ok (beforeZero (w.take r)) := by
  obtain ⟨rest, e⟩ := newFill_write sz w r h hr
  unfold ofFill
  rw [e]
  have hl : r = (w.take r).length := by simp; omega
  have ho : Holds (.str id none ((w.take r).map some ++ some 0 :: rest) r) (w.take r) [] := by
    conv => arg 1; arg 4; rw [hl]
    exact .str id none (w.take r) rest
  exact ⟨_, rfl, holds_text ho, by have := holds_useZ ho; rwa [List.append_nil] at this⟩

example : (ascii "ab").length ≤ 5 ∧ 1 ≤ (ascii "ab").length := by decide

/-- C132: a function which returns more than `sz`, or puts another character than zero behind the `sz` characters, makes
the constructor abort, whatever it writes inside of the block. -/
theorem C132_aborts (id sz : Nat) (w : Bytes) (r : Nat) (h : w.length ≤ sz + 1)
    (hr : r > sz ∨ ∃ c, c ≠ 0 ∧ w[sz]? = some c) :
    ofFill id sz (fun b => do
      let b ← StrMem.put b 0 w
      pure (b, r)) = .abort := by
  obtain ⟨b, e, hl, -⟩ := alloc_ok sz
  unfold ofFill newFill
  rw [e]
  simp only [Res.bind_ok]
  rw [put_split _ _ _ (by simp; omega)]
  simp only [Res.bind_ok, Res.pure_eq]
  rw [put_split _ _ _ (by simp; omega)]
  simp only [Res.bind_ok, List.take_zero, List.nil_append, Nat.zero_add]
  split
  · rfl
  · next hn =>
    obtain ⟨c, hc, hw⟩ := hr.resolve_left hn
    have hlt : sz < w.length := (List.getElem?_eq_some_iff.mp hw).1
    have hz : StrMem.get (w.map some ++ List.drop w.length (b.take sz ++ [0].map some ++ b.drop (sz + [0].length))) sz = .ok c := by
      unfold StrMem.get
      rw [List.getElem?_append_left (by simpa using hlt), List.getElem?_map, hw]
      rfl
    rw [hz]
    simp [hc]

example : (ascii "abc").length ≤ 2 + 1 ∧ ((2 : Nat) > 2 ∨ ∃ c, c ≠ 0 ∧ (ascii "abc")[2]? = some c) :=
  ⟨by decide, .inr ⟨99, by decide, by decide⟩⟩

/-- C132 (another limit of the check): a function which returns more than it wrote makes a string of bytes nobody wrote; reading it is
undefined, except for the first seven bytes, which are the mark of the allocation. -/
theorem C132_violation_unwritten :
    ((ofFill 1 9 (fun b => .ok (b, 9))).bind fun o => o.text) = .ub ∧
    ((ofFill 1 9 (fun b => .ok (b, 9))).bind fun o => useZ o.keeps (cStr o)) = .ub ∧
    ((ofFill 1 9 (fun b => .ok (b, 7))).bind fun o => o.text) = .ok (ascii "imtjson") := by
  decide +kernel

/-- C132 (the limit of the check): a function which writes behind the block has done so before the check. -/
theorem C132_violation_overflow (id sz : Nat) (w : Bytes) (r : Nat) (h : w.length > max (sz + 1) 7) :
    ofFill id sz (fun b => do
      let b ← StrMem.put b 0 w
      pure (b, r)) = .ub := by
  obtain ⟨b, e, hl, -⟩ := alloc_ok sz
  unfold ofFill newFill
  rw [e]
  simp only [Res.bind_ok]
  rw [put_split _ _ _ (by simp; omega)]
  simp only [Res.bind_ok]
  have : StrMem.put (b.take sz ++ [0].map some ++ b.drop (sz + [0].length)) 0 w = .ub := by
    unfold StrMem.put
    rw [if_neg]
    simp; omega
  rw [this]
  rfl

example : (ascii "abcdefgh").length > max (3 + 1) 7 := by decide

/-! ## C133 -/

theorem copyAll_ok (l : List (Obj × Bytes × Bytes)) (hl : ∀ x ∈ l, Holds x.1 x.2.1 x.2.2 ∨ (x.1 = .empty ∧ x.2.1 = [])) :
    ∀ (pre mid post : Block), mid.length = (l.flatMap (·.2.1)).length →
    copyAll (pre ++ mid ++ post) pre.length (l.map (·.1)) =
      .ok (pre ++ (l.flatMap (·.2.1)).map some ++ post, (pre ++ mid).length) := by
  induction l with
  | nil =>
    intro pre mid post h
    have : mid = [] := List.length_eq_zero_iff.mp h
    subst this
    simp [copyAll]
  | cons x l ih =>
    intro pre mid post h
    have hx : useN x.1.keeps (cStr x.1) (StrMem.length x.1) = .ok x.2.1 ∧ StrMem.length x.1 = x.2.1.length := by
      rcases hl x (by simp) with hx | ⟨e1, e2⟩
      · exact ⟨holds_useN hx, holds_length hx⟩
      · rw [e1, e2]; exact ⟨rfl, rfl⟩
    rw [List.map_cons, copyAll, hx.1]
    simp only [Res.bind_ok, hx.2]
    simp only [List.flatMap_cons, List.length_append] at h
    have hp := put_at pre (mid.take x.2.1.length) (mid.drop x.2.1.length ++ post) x.2.1 (by simp; omega)
    have e1 : pre ++ mid.take x.2.1.length ++ (mid.drop x.2.1.length ++ post) = pre ++ mid ++ post := by
      rw [← List.append_assoc, List.append_assoc pre, List.take_append_drop]
    rw [e1] at hp
    rw [hp]
    simp only [Res.bind_ok]
    have := ih (fun y hy => hl y (by simp [hy])) (pre ++ x.2.1.map some) (mid.drop x.2.1.length) post (by rw [List.length_drop]; omega)
    have e2 : (pre ++ x.2.1.map some).length = pre.length + x.2.1.length := by simp
    rw [e2] at this
    rw [← List.append_assoc, this]
    simp
    omega

/-- C133: the concatenation of strings gives their characters one after another, asks for exactly the memory it uses, and
is followed by a zero; whatever the parts are: strings, parts of strings, the empty string, none at all. -/
theorem C133_concat (id : Nat) (l : List (Obj × Bytes × Bytes))
    (hl : ∀ x ∈ l, Holds x.1 x.2.1 x.2.2 ∨ (x.1 = .empty ∧ x.2.1 = [])) :
    ∃ o, concat id (l.map (·.1)) = .ok o ∧ o.text = .ok (l.flatMap (·.2.1)) ∧
      useZ o.keeps (cStr o) = .ok (beforeZero (l.flatMap (·.2.1))) := by
  have hsum : ((l.map (·.1)).map StrMem.length).sum = (l.flatMap (·.2.1)).length := by
    clear * - hl
    induction l with
    | nil => rfl
    | cons x l ih =>
      have hx : StrMem.length x.1 = x.2.1.length := by
        rcases hl x (by simp) with hx | ⟨e1, e2⟩
        · exact holds_length hx
        · rw [e1, e2]; rfl
      simp only [List.map_cons, List.sum_cons, List.flatMap_cons, List.length_append, hx]
      rw [ih (fun y hy => hl y (by simp [hy]))]
  unfold concat
  rw [hsum]
  generalize hs : l.flatMap (·.2.1) = s at *
  obtain ⟨b, e, hlen, -⟩ := alloc_ok s.length
  obtain ⟨rest, e2⟩ := newFill_write s.length s s.length (Nat.le_refl _) (Nat.le_refl _)
  have heq : newFill s.length (fun b => do
      let r ← copyAll b 0 (l.map (·.1))
      pure (r.1, s.length)) = newFill s.length (fun b => do
      let b ← StrMem.put b 0 s
      pure (b, s.length)) := by
    unfold newFill
    rw [e]
    simp only [Res.bind_ok]
    rw [put_split _ _ _ (by simp; omega)]
    simp only [Res.bind_ok]
    generalize hB : b.take s.length ++ [0].map some ++ b.drop (s.length + [0].length) = B
    have hBl : s.length ≤ B.length := by rw [← hB]; simp; omega
    have h1 := copyAll_ok l hl [] (B.take s.length) (B.drop s.length) (by rw [hs]; simp; omega)
    simp only [List.nil_append, List.take_append_drop, List.length_nil, hs] at h1
    rw [h1, put_split _ _ _ (by omega)]
    simp
  simp only [heq, e2, Res.bind_ok, List.take_length]
  have ho := Holds.str id none s rest
  refine ⟨_, rfl, holds_text ho, ?_⟩
  have := holds_useZ ho
  rwa [List.append_nil] at this

example : ∃ l : List (Obj × Bytes × Bytes), (∀ x ∈ l, Holds x.1 x.2.1 x.2.2 ∨ (x.1 = .empty ∧ x.2.1 = [])) ∧
    l.flatMap (·.2.1) = ascii "abcab" :=
  ⟨[(_, _, _), (.empty, [], []), (_, _, _)], by
    intro x hx
    simp only [List.mem_cons, List.not_mem_nil, or_false] at hx
    rcases hx with rfl | rfl | rfl
    · exact .inl (.str 1 none (ascii "abc") [])
    · exact .inr ⟨rfl, rfl⟩
    · exact .inl (.sub 2 _ _ _ 0 2 (.str 1 none (ascii "abc") [])), by decide⟩

/-! ## C134 -/

theorem parts_last {s : Obj} {a post : Bytes} (h : Holds s a post) (ids : Nat → Nat) (cur : Nat) :
    (if cur = 0 then s else Obj.sub (ids cur) s cur (VOps.sub64 a.length cur)).text = .ok (Str.splitLast a cur) := by
  unfold Str.splitLast
  split
  · exact holds_text h
  · exact holds_text (.sub _ s a post cur _ h)

/-- C134: the parts `split` makes of a string are objects that give, through nothing but their own handles, the parts of
the contents: each keeps the whole string alive. -/
theorem C134_parts (s : Obj) (a post sep : Bytes) (ids : Nat → Nat) (h : Holds s a post) : ∀ (maxCount cur : Nat),
    (splitLoop s a sep ids maxCount cur).map Obj.text = (Str.splitLoop a sep maxCount cur).map .ok ∧
    ∀ p ∈ splitLoop s a sep ids maxCount cur, ∀ i ∈ s.keeps, i ∈ p.keeps := by
  have hk : ∀ cur, ∀ i ∈ s.keeps, i ∈ (if cur = 0 then s else Obj.sub (ids cur) s cur (VOps.sub64 a.length cur)).keeps := by
    intro cur i hi
    split
    · exact hi
    · simp [Obj.keeps, hi]
  intro n
  induction n with
  | zero =>
    intro cur
    rw [splitLoop, Str.splitLoop]
    refine ⟨?_, ?_⟩
    · rw [List.map_singleton, List.map_singleton, parts_last h]
    · intro p hp
      rw [List.mem_singleton] at hp
      subst hp
      exact hk cur
  | succ n ih =>
    intro cur
    rw [splitLoop, Str.splitLoop]
    cases Str.indexOf a sep cur with
    | none =>
      refine ⟨?_, ?_⟩
      · rw [List.map_singleton, List.map_singleton, parts_last h]
      · intro p hp
        rw [List.mem_singleton] at hp
        subst hp
        exact hk cur
    | some q =>
      obtain ⟨h1, h2⟩ := ih (q + sep.length)
      refine ⟨?_, ?_⟩
      · rw [List.map_cons, List.map_cons, h1, holds_text (.sub _ s a post cur _ h)]
        rfl
      · intro p hp i hi
        rcases List.mem_cons.mp hp with rfl | hp
        · simp [Obj.keeps, hi]
        · exact h2 p hp i hi

example : ∃ s a post, Holds s a post ∧ (splitLoop s a (ascii ",") (· + 2) 10 0).length = 3 :=
  ⟨_, _, _, .str 1 none (ascii "a,b,c") [], by decide +kernel⟩

end Imt.Props
