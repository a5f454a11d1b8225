import Verif.Model.ExcText
import Verif.Props.NamedEnum
/-!
# C169: texts of exceptions
-/
namespace Imt.Props
open Imt Imt.ExcText

theorem listLoop_eq (sep : Nat) (x : Bytes) (l : List Bytes) : listLoop sep (x :: l) =
    [sep, 39] ++ [39, 44, 39].intercalate (x :: l) ++ [39] := by
  induction l generalizing sep x with
  | nil => simp [listLoop, List.intercalate, ascii]
  | cons y l ih =>
    rw [listLoop, ih 44 y]
    simp [List.intercalate, List.intersperse, ascii]

theorem takeWhile_nz : ∀ (t : Bytes), 0 ∉ t → t.takeWhile (· ≠ 0) = t
  | [], _ => rfl
  | a :: t, h => by
    have ha : a ≠ 0 := fun e => h (by rw [e]; exact List.mem_cons_self ..)
    rw [List.takeWhile_cons_of_pos (by simpa using ha), takeWhile_nz t fun h' => h (List.mem_cons_of_mem _ h')]

theorem read_take {t : Bytes} (m : Mem) (p : Nat) (hp : m[p]? = some (some t)) (h0 : 0 ∉ t) : readC m p = .ok t := by
  unfold readC
  rw [hp]
  simp only
  rw [takeWhile_nz t h0]

/-- Pointers of a string that is made once. -/
theorem enum_calls (name : Bytes) (l : List Bytes) (n : Nat) (m : Mem) (i : Nat) :
    calls (enumWhat name l) n m (some i) = (List.replicate n i, m, some i) := by
  induction n with
  | zero => rfl
  | succ n ih => simp only [calls, enumWhat, ih, List.replicate_succ]

/-- **C169, unknown names**: however often `what()` is called on the exception for a name that is not in the table, it returns
one and the same pointer, valid all the time, and the text there is the unknown name followed by all names of the table in
order (names without zero bytes). -/
theorem C169_enum (x : List NamedEnum.Def) (o : NamedEnum.Obj) (h : NamedEnum.Made x o) (name : Bytes)
    (hx : ∀ d ∈ x, d.name ≠ name) (h0 : 0 ∉ name) (hz : ∀ d ∈ x, 0 ∉ d.name) (n : Nat) (m : Mem) :
    ∃ l, NamedEnum.byNameAt o name = .error (name, l) ∧ l.Perm (x.map (·.name)) ∧
      (l.Pairwise fun a b => ltBytes b a = false) ∧
      (calls (enumWhat name l) (n + 1) m none).1 = List.replicate (n + 1) m.length ∧
      ∀ p ∈ (calls (enumWhat name l) (n + 1) m none).1, readC (calls (enumWhat name l) (n + 1) m none).2.1 p =
        .ok (ascii "Unknown enum name '" ++ name ++ ascii "'. The value is not on following list:" ++
          (if l = [] then [] else [32, 39] ++ [39, 44, 39].intercalate l ++ [39])) := by
  obtain ⟨l, h1, h2⟩ := C52_unknown_name_exception x o h name hx
  have hl : l = o.byName.map (·.name) := by
    unfold NamedEnum.byNameAt at h1
    split at h1
    · cases h1; rfl
    · split at h1
      · cases h1
      · cases h1; rfl
  have e : calls (enumWhat name l) (n + 1) m none =
      (List.replicate (n + 1) m.length, m ++ [some (enumText name l)], some m.length) := by
    simp only [calls, enumWhat, assign]
    rw [enum_calls, List.replicate_succ]
  refine ⟨l, h1, h2, ?_, by rw [e], ?_⟩
  · rw [hl, List.pairwise_map]
    exact h.byName.sorted
  · rw [e]
    intro p hp
    obtain ⟨-, rfl⟩ := List.mem_replicate.1 hp
    have ht : enumText name l = ascii "Unknown enum name '" ++ name ++ ascii "'. The value is not on following list:" ++
          (if l = [] then [] else [32, 39] ++ [39, 44, 39].intercalate l ++ [39]) := by
      cases l with
      | nil => rfl
      | cons y l => rw [enumText, listLoop_eq, if_neg (List.cons_ne_nil _ _)]
    rw [← ht]
    refine read_take _ _ (by simp) ?_
    have hzl : ∀ y ∈ l, 0 ∉ y := fun y hy => by
      obtain ⟨d, hd, rfl⟩ := List.mem_map.1 (h2.mem_iff.1 hy)
      exact hz d hd
    have loop0 : ∀ (s : Nat) (l : List Bytes), s ≠ 0 → (∀ y ∈ l, 0 ∉ y) → 0 ∉ listLoop s l := by
      intro s l
      induction l generalizing s with
      | nil => intro _ _ hh; cases hh
      | cons y l ih =>
        intro hs hy
        have hy1 := hy y (List.mem_cons_self ..)
        have := ih 44 (by decide) fun z hz => hy z (List.mem_cons_of_mem _ hz)
        simp only [listLoop, List.mem_append, not_or]
        exact ⟨⟨⟨⟨by simpa using Ne.symm hs, by decide⟩, hy1⟩, by decide⟩, this⟩
    simp only [enumText, List.mem_append, not_or]
    exact ⟨⟨⟨by decide +kernel, h0⟩, by decide +kernel⟩, loop0 32 l (by decide) hzl⟩

example : NamedEnum.Made [⟨1, [98]⟩, ⟨2, [97]⟩] ⟨[⟨1, [98]⟩, ⟨2, [97]⟩], [⟨2, [97]⟩, ⟨1, [98]⟩]⟩ ∧
    enumText (ascii "x") [ascii "a", ascii "b"] = ascii "Unknown enum name 'x'. The value is not on following list: 'a','b'" :=
  ⟨⟨⟨.refl _, by decide⟩, ⟨.swap .., by decide⟩⟩, by decide +kernel⟩

/-- **C169, numbers**: the pointer of the last `what()` is valid and tells the text that is not a number (without zero bytes). -/
theorem C169_number (val : Bytes) (h0 : 0 ∉ val) (m : Mem) (b : Buf) :
    readC (numberWhat val m b).2.1 (numberWhat val m b).1 =
      .ok (ascii "Invalid numeric format (precise number): " ++ val) := by
  have ht : 0 ∉ ascii "Invalid numeric format (precise number): " ++ val := by
    simp only [List.mem_append, not_or]
    exact ⟨by decide +kernel, h0⟩
  unfold numberWhat assign
  split <;> exact read_take _ _ (by simp) ht

example : 0 ∉ ascii "12x" := by decide

/-- **C169 does not hold for numbers asked twice**: each `what()` releases the text the one before returned, although only
functions that leave the exception unchanged are called; reading it then is undefined. For every text. -/
theorem C169_violation_number (val : Bytes) (m : Mem) :
    let r := calls (numberWhat val) 2 m none
    r.1 = [m.length, m.length + 1] ∧ readC r.2.1 m.length = .ub := by
  simp [calls, numberWhat, assign, readC]

/-- **C169 does not hold for names with a zero byte**: the text ends there, the list of known names is not seen. -/
theorem C169_violation_zero :
    let r := enumWhat [120, 0, 121] [ascii "a"] [] none
    readC r.2.1 r.1 = .ok (ascii "Unknown enum name 'x") := by decide +kernel

end Imt.Props
