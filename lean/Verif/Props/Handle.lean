import Verif.Model.Handle
/-!
# Properties of keys and custom objects (C147)
-/
namespace Imt.Props
open Imt Imt.Handle

/-- Values a program can make: objects of the other classes (whose flags are neither `proxy` nor `customObject`,
basicValues.h, stringValue.cpp, arrayValue.h, objectValue.h, object.cpp:41) and what the key and wrapping functions make of
values. -/
inductive MadeH : Obj → Prop where
  | base (a : Nat) (w : View) (h : w.flags &&& proxyFlag = 0) (h' : w.flags &&& customFlag = 0) : MadeH (.base a w)
  | bind (fresh : Nat) (k : Bytes) {v : Obj} : MadeH v → MadeH (bind fresh k v)
  | stored (fresh : Nat) (k : Bytes) {v : Obj} : MadeH v → MadeH (stored fresh k v)
  | strip {v : Obj} : MadeH v → MadeH (strip v)
  | pack (fresh ty : Nat) {v : Obj} : MadeH v → MadeH (makeValue fresh ty v)

/-- No key inside and no key outside: the flags say so. -/
inductive Bare : Obj → Prop where
  | base (a : Nat) (w : View) (h : w.flags &&& proxyFlag = 0) : Bare (.base a w)
  | wrap (a ty : Nat) {v : Obj} : Bare v → Bare (.wrap a ty v)

/-- A bare value, or one key on top of a bare value. -/
inductive Flat : Obj → Prop where
  | bare {v : Obj} : Bare v → Flat v
  | keyed (a : Nat) (k : Bytes) {v : Obj} : Bare v → Flat (.keyed a false k v)

theorem bits_64 : Nat.testBit 64 6 = true ∧ Nat.testBit 8 6 = false ∧ Nat.testBit 8 3 = true := by decide

theorem or_and_ne (a : Nat) : (a ||| 8) &&& 8 ≠ 0 := by
  intro h
  have := congrArg (fun n => n.testBit 3) h
  simp [bits_64] at this

theorem or64_and8 (a : Nat) : (a ||| 64) &&& 8 = a &&& 8 := by
  rw [Nat.and_or_distrib_right]; simp

theorem Bare.facts {v : Obj} (h : Bare v) : keyOf v = [] ∧ isProxy v = false ∧ strip v = v := by
  induction h with
  | base a w h => exact ⟨rfl, by simp [isProxy, view, h], rfl⟩
  | @wrap a ty v _ ih =>
    refine ⟨ih.1, ?_, rfl⟩
    have := ih.2.1
    simp only [isProxy, view, proxyFlag, customFlag] at this ⊢
    rw [or64_and8]; exact this

theorem isProxy_keyed (a : Nat) (s : Bool) (k : Bytes) (v : Obj) : isProxy (.keyed a s k v) = true := by
  simp only [isProxy, view, proxyFlag]
  simpa using or_and_ne _

theorem Flat.strip_bare {v : Obj} (h : Flat v) : Bare (strip v) := by
  cases h with
  | bare h => rw [h.facts.2.2]; exact h
  | keyed a k h => simp only [strip]; rw [h.facts.2.2]; exact h

theorem flat_bind (fresh : Nat) (k : Bytes) {v : Obj} (h : Flat v) : Flat (bind fresh k v) := by
  unfold Handle.bind
  split
  · exact .bare h.strip_bare
  · split
    · exact h
    · exact .keyed _ _ h.strip_bare

theorem flat_stored (fresh : Nat) (k : Bytes) {v : Obj} (h : Flat v) : Flat (stored fresh k v) := by
  unfold stored
  split
  · split
    · exact h
    · exact .keyed _ _ h.strip_bare
  · next hp =>
    cases h with
    | bare h => exact .keyed _ _ h
    | keyed a k' h => exact absurd (isProxy_keyed _ _ _ _) hp

theorem madeH_flat {v : Obj} (h : MadeH v) : Flat v := by
  induction h with
  | base a w h _ => exact .bare (.base a w h)
  | bind fresh k _ ih => exact flat_bind fresh k ih
  | stored fresh k _ ih => exact flat_stored fresh k ih
  | strip _ ih => exact .bare ih.strip_bare
  | pack fresh ty _ ih => exact .bare (.wrap _ _ ih.strip_bare)

/-- C147: keys never pile up: at most one key on top of a value, none below it; the flag `proxy` is set exactly on
key holders; a value without that flag has no key. -/
theorem C147_one_key (v : Obj) (h : MadeH v) :
    (isProxy v = true ↔ ∃ a k w, v = .keyed a false k w) ∧ isProxy (strip v) = false ∧ keyOf (strip v) = [] ∧
    strip (strip v) = strip v ∧ (isProxy v = false → strip v = v ∧ keyOf v = []) := by
  have hf := madeH_flat h
  have hb := hf.strip_bare.facts
  refine ⟨⟨fun hp => ?_, fun ⟨a, k, w, e⟩ => e ▸ isProxy_keyed _ _ _ _⟩, hb.2.1, hb.1, hb.2.2, fun hp => ?_⟩
  · cases hf with
    | bare h => rw [h.facts.2.1] at hp; cases hp
    | keyed a k h => exact ⟨_, _, _, rfl⟩
  · cases hf with
    | bare h => exact ⟨h.facts.2.2, h.facts.1⟩
    | keyed a k h => rw [isProxy_keyed] at hp; cases hp

/-- Two values answer every read function alike, except for the flag `proxy`. -/
def SameReads (v w : Obj) : Prop :=
  { view v with flags := (view v).flags ||| proxyFlag } = { view w with flags := (view w).flags ||| proxyFlag }

theorem SameReads.refl (v : Obj) : SameReads v v := rfl
theorem SameReads.symm {v w : Obj} (h : SameReads v w) : SameReads w v := Eq.symm h
theorem SameReads.trans {u v w : Obj} (h : SameReads u v) (h' : SameReads v w) : SameReads u w := Eq.trans h h'

theorem sameReads_keyed (a : Nat) (s : Bool) (k : Bytes) (v : Obj) : SameReads (.keyed a s k v) v := by
  simp [SameReads, view, Nat.or_assoc]

theorem sameReads_strip (v : Obj) : SameReads (strip v) v := by
  induction v with
  | base a w => rfl
  | keyed a s k v ih => exact ih.trans (sameReads_keyed a s k v).symm
  | wrap a ty v _ => rfl

/-- C147: binding a key gives a value with that key that is otherwise the same: it answers every read function as before
(except for the flag `proxy`), it is a copy of the original, and stripping the key gives the stripped original. -/
theorem C147_bind (fresh : Nat) (k : Bytes) (v : Obj) (h : MadeH v) :
    keyOf (bind fresh k v) = k ∧ SameReads (bind fresh k v) v ∧ isCopyOf (bind fresh k v) v = true ∧
    strip (bind fresh k v) = strip v ∧ isProxy (bind fresh k v) = !k.isEmpty := by
  have hf := madeH_flat h
  have hb := hf.strip_bare.facts
  unfold Handle.bind
  by_cases e : k = []
  · subst e
    rw [if_pos rfl]
    exact ⟨hb.1, sameReads_strip v, by simp [isCopyOf, hb.2.2], hb.2.2, by simpa using hb.2.1⟩
  · rw [if_neg e]
    by_cases e2 : k = keyOf v
    · rw [if_pos e2]
      refine ⟨e2.symm, .refl v, by simp [isCopyOf], rfl, ?_⟩
      cases hf with
      | bare h => rw [h.facts.1] at e2; exact absurd e2 e
      | keyed a k' h => rw [isProxy_keyed]; cases k <;> simp at e ⊢
    · rw [if_neg e2]
      refine ⟨rfl, (sameReads_keyed _ _ _ _).trans (sameReads_strip v), by simp [isCopyOf, strip, hb.2.2], by simp [strip, hb.2.2], ?_⟩
      rw [isProxy_keyed]; cases k <;> simp at e ⊢

/-- C147: the same for putting a value into an object under a name. -/
theorem C147_set (fresh : Nat) (k : Bytes) (v : Obj) (h : MadeH v) :
    keyOf (stored fresh k v) = k ∧ SameReads (stored fresh k v) v ∧ isCopyOf (stored fresh k v) v = true ∧
    strip (stored fresh k v) = strip v ∧ isProxy (stored fresh k v) = true := by
  have hf := madeH_flat h
  have hb := hf.strip_bare.facts
  unfold stored
  by_cases hp : isProxy v = true
  · rw [if_pos hp]
    by_cases e : keyOf v = k
    · rw [if_pos e]
      exact ⟨e, .refl v, by simp [isCopyOf], rfl, hp⟩
    · rw [if_neg e]
      exact ⟨rfl, (sameReads_keyed _ _ _ _).trans (sameReads_strip v), by simp [isCopyOf, strip, hb.2.2],
        by simp [strip, hb.2.2], isProxy_keyed _ _ _ _⟩
  · rw [if_neg hp]
    exact ⟨rfl, sameReads_keyed _ _ _ _, by simp [isCopyOf, strip], rfl, isProxy_keyed _ _ _ _⟩

/-- C147: being a copy is an equivalence, and `before` orders what are no copies of each other, as `std::set` needs. -/
theorem C147_copies (u v w : Obj) :
    isCopyOf u u = true ∧ (isCopyOf u v = isCopyOf v u) ∧ (isCopyOf u v = true → isCopyOf v w = true → isCopyOf u w = true) ∧
    before u u = false ∧ (before u v = true → before v w = true → before u w = true) ∧
    (isCopyOf u v = false ↔ (before u v = true ∨ before v u = true)) := by
  simp only [isCopyOf, before, beq_iff_eq, beq_eq_false_iff_ne, decide_eq_true_eq, decide_eq_false_iff_not]
  refine ⟨by simp, Bool.beq_comm, fun a b => a.trans b, by omega, fun a b => by omega, by omega⟩

/-- C147: a packed value answers every read function as its substitute, with the flag `customObject` added, and
carries no key. -/
theorem C147_packed (fresh ty : Nat) (v : Obj) (h : MadeH v) :
    view (makeValue fresh ty v) = { view (strip v) with flags := (view (strip v)).flags ||| customFlag } ∧
    SameReads (strip v) v ∧ keyOf (makeValue fresh ty v) = [] ∧ isProxy (makeValue fresh ty v) = false ∧
    (view (makeValue fresh ty v)).flags &&& customFlag ≠ 0 := by
  have hb := (madeH_flat h).strip_bare
  have hw := (Bare.wrap fresh ty hb).facts
  refine ⟨rfl, sameReads_strip v, hw.1, hw.2.1, ?_⟩
  show ((view (strip v)).flags ||| 64) &&& 64 ≠ 0
  intro h
  have := congrArg (fun n => n.testBit 6) h
  simp [bits_64] at this

/-- Binding keys, storing in objects and stripping, in any order. -/
inductive PassedOn : Obj → Obj → Prop where
  | here (v : Obj) : PassedOn v v
  | bind (fresh : Nat) (k : Bytes) {u v : Obj} : PassedOn u v → PassedOn u (bind fresh k v)
  | stored (fresh : Nat) (k : Bytes) {u v : Obj} : PassedOn u v → PassedOn u (stored fresh k v)
  | strip {u v : Obj} : PassedOn u v → PassedOn u (strip v)

theorem passedOn_made {u v : Obj} (h : PassedOn u v) (hu : MadeH u) : MadeH v ∧ strip v = strip u := by
  induction h with
  | here _ => exact ⟨hu, rfl⟩
  | bind fresh k _ ih => obtain ⟨a, b⟩ := ih hu; exact ⟨.bind fresh k a, ((C147_bind fresh k _ a).2.2.2.1).trans b⟩
  | stored fresh k _ ih => obtain ⟨a, b⟩ := ih hu; exact ⟨.stored fresh k a, ((C147_set fresh k _ a).2.2.2.1).trans b⟩
  | strip _ ih => obtain ⟨a, b⟩ := ih hu; exact ⟨.strip a, (C147_one_key _ a).2.2.2.1.trans b⟩

/-- C147: through any number of keys and objects, `cast` to the type of the packed object or a type its pointer converts to gives
the packed object, `cast` to any other type gives nothing, and so does `cast` of values that are not packed. -/
theorem C147_cast (up : Nat → Nat → Bool) (fresh ty t : Nat) (v w : Obj) (h : MadeH v) (hp : PassedOn (makeValue fresh ty v) w) :
    cast up t w = if t = ty ∨ up ty t = true then some fresh else none := by
  have := (passedOn_made hp (.pack fresh ty h)).2
  unfold Handle.cast
  rw [this]
  simp only [makeValue, strip]
  by_cases e : t = ty
  · simp [e]
  · simp [e, Ne.symm e]

/-- C147: `cast` of a value that is not marked as packed gives nothing. -/
theorem C147_cast_plain (up : Nat → Nat → Bool) (t : Nat) (v : Obj)
    (hc : (view v).flags &&& customFlag = 0) : cast up t v = none := by
  have hs := sameReads_strip v
  unfold Handle.cast
  cases hb : strip v with
  | base a w => rfl
  | keyed a s k w => rfl
  | wrap a ty w =>
    exfalso
    rw [hb] at hs
    have hf : (view (Obj.wrap a ty w)).flags ||| proxyFlag = (view v).flags ||| proxyFlag := congrArg View.flags hs
    have h1 := congrArg (fun n => n.testBit 6) hf
    have h2 := congrArg (fun n => n.testBit 6) hc
    simp [view, proxyFlag, customFlag, bits_64] at h1 h2
    rw [h1] at h2
    cases h2

/-- A number with its key, packed with a custom object and put into an object. -/
def seven : Obj := .base 1 { type := 2, flags := 4, uint := 7, int := 7, num := 0x401C000000000000, bool := true, str := [], size := 0, item := fun _ => 0, member := fun _ => 0 }

example : MadeH (bind 2 (ascii "a") seven) ∧ PassedOn (makeValue 3 50 (bind 2 (ascii "a") seven))
      (stored 4 (ascii "b") (makeValue 3 50 (bind 2 (ascii "a") seven))) ∧
    cast (fun a b => a == 50 && b == 40) 40 (stored 4 (ascii "b") (makeValue 3 50 (bind 2 (ascii "a") seven))) = some 3 ∧
    cast (fun a b => a == 50 && b == 40) 41 (stored 4 (ascii "b") (makeValue 3 50 (bind 2 (ascii "a") seven))) = none ∧
    (view (bind 2 (ascii "a") seven)).flags &&& customFlag = 0 ∧ keyOf (bind 2 (ascii "a") seven) = ascii "a" :=
  ⟨.bind _ _ (.base _ _ (by decide) (by decide)), .stored _ _ (.here _), by decide +kernel, by decide +kernel, by decide +kernel, by decide +kernel⟩

/-- C147 is false for the key object: no function makes an `ObjectProxyString`, so whichever way a key is bound, also by
a `String`, `getKeyObject` gives undefined, although "if the String object is used, the function returns the String". -/
theorem C147_violation_key_object (v : Obj) (h : MadeH v) : getKeyObject v = none := by
  have hf := madeH_flat h
  unfold getKeyObject
  cases hf with
  | bare h => rw [h.facts.2.1]; rfl
  | keyed a k h => simp

example : MadeH (bind 2 (ascii "a") seven) ∧ isProxy (bind 2 (ascii "a") seven) = true :=
  ⟨.bind _ _ (.base _ _ (by decide) (by decide)), by decide +kernel⟩

/-- C147: the memory of a key holder and of a precise number has room for the text and its zero, whatever the layout of
the class, for every text that could be allocated. -/
theorem C147_memory (sz off buf : Nat) (text : Bytes) (h1 : off + buf ≤ sz) (h2 : sz + text.length + 1 < 2 ^ 63) :
    newWithText sz off buf text = .ok text := by
  unfold newWithText
  have e : (sz + 2 ^ 64 - buf + text.length + 1) % 2 ^ 64 = sz - buf + text.length + 1 := by
    have : sz + 2 ^ 64 - buf + text.length + 1 = (sz - buf + text.length + 1) + 2 ^ 64 := by omega
    rw [this, Nat.add_mod_right, Nat.mod_eq_of_lt (by omega)]
  dsimp only
  rw [e, if_neg (by omega), if_neg (by omega)]

example : (32 : Nat) + 256 ≤ 288 ∧ 288 + (List.replicate 1000 97).length + 1 < 2 ^ 63 ∧
    newWithText 288 32 256 (ascii "key") = .ok (ascii "key") ∧ newWithText 288 32 257 (ascii "key") = .ub := by decide +kernel

end Imt.Props
