import Verif.Model.ArrayIter
import Verif.Props.ArrayB
/-!
# C166: loops over array builders
-/
namespace Imt.Props
open Imt Imt.ArrB

variable {α : Type}

/-- The loop from position `i` on, given what each round does. -/
theorem forEach_inv (u : α) (body : Nat → α → AB α → Res (AB α)) (l : List α) (hl : l.length < 2 ^ 64)
    (P : Nat → AB α → Prop)
    (hget : ∀ i (hi : i < l.length) s, P i s → get u s i = .ok l[i])
    (hbody : ∀ i (hi : i < l.length) s, P i s → ∃ s', body i l[i] s = .ok s' ∧ P (i + 1) s') :
    ∀ (n i : Nat) (s : AB α), i ≤ l.length → l.length < i + n → P i s →
      ∃ s', forEach u body l.length n i s = .ok (l.drop i, s') ∧ P l.length s'
  | 0, i, s, h1, h2, _ => by omega
  | n + 1, i, s, h1, h2, hp => by
    unfold forEach
    by_cases he : i = l.length
    · rw [if_pos he, he, List.drop_length]
      exact ⟨s, rfl, he ▸ hp⟩
    · have hi : i < l.length := by omega
      rw [if_neg he, hget i hi s hp]
      obtain ⟨s1, e1, p1⟩ := hbody i hi s hp
      simp only [Res.bind_ok]
      rw [e1]
      simp only [Res.bind_ok]
      rw [Nat.mod_eq_of_lt (by omega)]
      obtain ⟨s2, e2, p2⟩ := forEach_inv u body l hl P hget hbody n (i + 1) s1 hi (by omega) p1
      rw [e2]
      exact ⟨s2, by rw [List.drop_eq_getElem_cons hi]; rfl, p2⟩

/-- **C166.** A loop over a builder gives each of its items once, in order, and leaves the builder as it was. -/
theorem C166_loop (u : α) {s : AB α} {b l : List α} (h : Rep s b l) (hl : l.length < 2 ^ 64) :
    loop u (fun _ _ s => .ok s) s = .ok (l, s) := by
  unfold loop
  rw [h.size]
  obtain ⟨s', e, p⟩ := forEach_inv u (fun _ _ s => .ok s) l hl (fun _ t => t = s)
    (fun i hi t ht => by subst ht; exact rep_get h u hi) (fun i hi t ht => ⟨t, rfl, ht⟩) (l.length + 1) 0 s (Nat.zero_le _) (by omega) rfl
  rw [e, p, List.drop_zero]

/-- **C166.** A loop whose body appends to the same builder ends and gives exactly the items that were there before. -/
theorem C166_append (u : α) (g : Nat → α → List α) {s : AB α} {b l : List α} (h : Rep s b l) (hl : l.length < 2 ^ 64) :
    ∃ s', loop u (fun i v s => .ok (addSet s (g i v))) s = .ok (l, s') ∧ Rep s' b (l ++ (l.mapIdx g).flatten) := by
  unfold loop
  rw [h.size]
  obtain ⟨s', e, p⟩ := forEach_inv u (fun i v s => .ok (addSet s (g i v))) l hl (fun i t => Rep t b (l ++ ((l.mapIdx g).take i).flatten))
    (fun i hi t ht => by rw [rep_get ht u (by simp; omega), List.getElem_append_left hi])
    (fun i hi t ht => ⟨_, rfl, by
      have := rep_addSet ht (g i l[i])
      rw [List.append_assoc] at this
      rw [List.take_add_one, List.getElem?_eq_getElem (by simpa using hi), List.getElem_mapIdx]
      simpa using this⟩)
    (l.length + 1) 0 s (Nat.zero_le _) (by omega) (by simpa using h)
  rw [List.take_of_length_le (by simp)] at p
  exact ⟨s', by rw [e, List.drop_zero], p⟩

/-- **C166.** A loop which replaces each item by `set` at its index maps the list. -/
theorem C166_set (u : α) (g : α → α) {s : AB α} {b l : List α} (h : Rep s b l) (hl : l.length < 2 ^ 64) :
    ∃ s', loop u (fun i v s => ArrB.set u s i (g v)) s = .ok (l, s') ∧ Rep s' b (l.map g) := by
  unfold loop
  rw [h.size]
  obtain ⟨s', e, p⟩ := forEach_inv u (fun i v s => ArrB.set u s i (g v)) l hl (fun i t => Rep t b ((l.map g).take i ++ l.drop i))
    (fun i hi t ht => by
      have hx : i < ((l.map g).take i ++ l.drop i).length := by simp; omega
      rw [rep_get ht u hx, List.getElem_append_right (by simp; omega)]
      simp [Nat.min_eq_left (Nat.le_of_lt hi)])
    (fun i hi t ht => by
      have hx : i < ((l.map g).take i ++ l.drop i).length := by simp; omega
      obtain ⟨s', e, hr⟩ := rep_set ht u hx (g l[i])
      refine ⟨s', e, ?_⟩
      have hlen : ((l.map g).take i).length = i := by simp; omega
      rw [List.take_append_of_le_length (by omega), List.take_of_length_le (by omega), List.drop_append, hlen,
        List.drop_of_length_le (by omega), List.nil_append, List.drop_drop] at hr
      have e1 : i + (i + 1 - i) = i + 1 := by omega
      rw [e1] at hr
      rw [List.take_add_one, List.getElem?_eq_getElem (by simpa using hi), List.getElem_map, List.append_assoc]
      exact hr)
    (l.length + 1) 0 s (Nat.zero_le _) (by omega) (by simpa using h)
  rw [List.take_of_length_le (by simp), List.drop_length, List.append_nil] at p
  exact ⟨s', by rw [e, List.drop_zero], p⟩

/-- **C166.** Whatever legal operations the body makes on the builder – also removing items – the loop ends, and either gives items or throws
`out_of_range`; nothing undefined happens. -/
theorem C166_safe (u : α) (body : Nat → α → AB α → Res (AB α))
    (hb : ∀ i v s b l, Rep s b l → body i v s = .err ∨ ∃ s' b' l', body i v s = .ok s' ∧ Rep s' b' l')
    {s : AB α} {b l : List α} (h : Rep s b l) (hl : l.length < 2 ^ 64) :
    loop u body s = .err ∨ ∃ seen s' b' l', loop u body s = .ok (seen, s') ∧ seen.length = l.length ∧ Rep s' b' l' := by
  have key : ∀ (n i : Nat) (s : AB α) (b' l' : List α), Rep s b' l' → i ≤ l.length → l.length < i + n →
      forEach u body l.length n i s = .err ∨ ∃ seen s' b'' l'', forEach u body l.length n i s = .ok (seen, s') ∧
        seen.length = l.length - i ∧ Rep s' b'' l'' := by
    intro n
    induction n with
    | zero => intro i s b' l' _ h1 h2; omega
    | succ n ih =>
      intro i s b' l' hr h1 h2
      unfold forEach
      by_cases he : i = l.length
      · rw [if_pos he]
        exact .inr ⟨[], s, b', l', rfl, by simp [he], hr⟩
      · rw [if_neg he]
        by_cases hi : i < l'.length
        · rw [rep_get hr u hi]
          simp only [Res.bind_ok]
          rcases hb i l'[i] s b' l' hr with e | ⟨s1, b1, l1, e, hr1⟩
          · rw [e]; exact .inl rfl
          · rw [e]
            simp only [Res.bind_ok]
            rw [Nat.mod_eq_of_lt (by omega)]
            rcases ih (i + 1) s1 b1 l1 hr1 (by omega) (by omega) with e2 | ⟨seen, s2, b2, l2, e2, hn, hr2⟩
            · rw [e2]; exact .inl rfl
            · rw [e2]
              exact .inr ⟨_, s2, b2, l2, rfl, by rw [List.length_cons, hn]; omega, hr2⟩
        · rw [get_out hr u (by omega)]
          exact .inl rfl
  unfold loop
  rw [h.size]
  simpa using key (l.length + 1) 0 s b l h (Nat.zero_le _) (by omega)

theorem rep_pushAll (items : List α) : ∀ {s : AB α} {b l : List α}, Rep s b l → Rep (items.foldl add s) b (l ++ items) := by
  induction items with
  | nil => intro s b l h; simpa using h
  | cons v r ih => intro s b l h; simpa using ih (rep_add h v)

/-- **C166.** A value made of a range is the array of its items except those that are not defined. -/
theorem C166_range (isDef : α → Bool) (u : α) (items : List α) : ofRange isDef u items = .ok (items.filter isDef) := by
  have h := rep_pushAll items (rep_new (α := α))
  rw [List.nil_append] at h
  exact rep_commit_def h isDef u (fun v hv => absurd hv (by simp))

/-- **C166.** The range of a whole builder gives the same array whether its base or its changes hold the items. -/
theorem C166_range_of (isDef : α → Bool) (u : α) {s : AB α} {b l : List α} (h : Rep s b l) (hl : l.length < 2 ^ 64) :
    rangeOf isDef u s = .ok (l.filter isDef) := by
  unfold rangeOf
  rw [C166_loop u h hl]
  exact C166_range isDef u l

/-- **C166.** The position returned with an added empty container is where it is. -/
theorem C166_added (u : α) {s : AB α} {b l : List α} (h : Rep s b l) (v : α) :
    Rep (addEmpty s v).1 b (l ++ [v]) ∧ get u (addEmpty s v).1 (addEmpty s v).2 = .ok v := by
  have hr := rep_add h v
  refine ⟨hr, ?_⟩
  show get u (add s v) (size s) = _
  rw [h.size, rep_get hr u (by simp)]
  simp

/-- A builder with a base and changes; doubling its items by a loop; a loop that removes items throws. -/
example : loop 0 (fun _ v s => .ok (addSet s [v + 10])) (add (ofBase [1, 2]) 3) =
    .ok ([1, 2, 3], ⟨[1, 2], [some 3, some 11, some 12, some 13], 2⟩) ∧
    loop 0 (fun _ _ s => erase 0 s 0) (ofBase [1, 2, 3, 4]) = .err ∧
    rangeOf (· != 0) 0 (add (add (ofBase [1, 2]) 0) 3) = .ok [1, 2, 3] := by decide +kernel
example : Rep (add (ofBase [1, 2]) 3) [1, 2] [1, 2, 3] := rep_add (rep_ofBase _) _
example (i : Nat) (v : Nat) (s : AB Nat) (b l : List Nat) (h : Rep s b l) :
    (fun _ _ s => if 0 < size s then erase 0 s 0 else .err : Nat → Nat → AB Nat → Res (AB Nat)) i v s = .err ∨
    ∃ s' b' l', (fun _ _ s => if 0 < size s then erase 0 s 0 else .err : Nat → Nat → AB Nat → Res (AB Nat)) i v s = .ok s' ∧
      Rep s' b' l' := by
  dsimp only
  split
  · rename_i hs
    rw [h.size] at hs
    obtain ⟨s', e, hr⟩ := rep_erase h 0 hs
    exact .inr ⟨s', b, _, e, hr⟩
  · exact .inl rfl

end Imt.Props
