import Verif.Model.Comments
import Verif.Spec.Comments
import Verif.Spec.Json
import Verif.Model.Parser
/-!
# C49: the comment filter removes exactly the comments
-/
namespace Imt.Props
open Imt Imt.Comments Imt.Spec.Comments Imt.Spec

theorem out_some {s s' : St} {c : Nat} (h : next s = (some c, s')) : output s = c :: output s' := by
  rw [output.eq_def]; split
  · rename_i h'; rw [h] at h'; cases h'
  · rename_i h'; rw [h] at h'; cases h'; rfl

theorem out_none {s s' : St} (h : next s = (none, s')) : output s = [] := by
  rw [output.eq_def]; split
  · rfl
  · rename_i h'; rw [h] at h'; cases h'

theorem out_stored (r : Bytes) (d : Nat) (b : Bool) : output ⟨r, some d, b⟩ = d :: output ⟨r, none, b⟩ := out_some rfl

/-- Outside of strings. -/
abbrev outP (r : Bytes) : Bytes := output ⟨r, none, false⟩
/-- Inside a string. -/
abbrev outS (r : Bytes) : Bytes := output ⟨r, none, true⟩

theorem next_plain (r : Bytes) : next ⟨r, none, false⟩ = plain r := rfl

theorem outP_congr {r r' : Bytes} (h : plain r = plain r') : outP r = outP r' := by
  cases e : plain r' with
  | mk o s' =>
    rw [e] at h
    cases o with
    | none => rw [outP, outP, out_none (s := ⟨r, none, false⟩) h, out_none (s := ⟨r', none, false⟩) e]
    | some c => rw [outP, outP, out_some (s := ⟨r, none, false⟩) h, out_some (s := ⟨r', none, false⟩) e]

theorem outP_nil : outP [] = [] := out_none (s' := ⟨[], none, false⟩) (by rw [next_plain, plain])
theorem outP_ch {c : Nat} (r : Bytes) (h : c ≠ 34) (h' : c ≠ 47) : outP (c :: r) = c :: outP r :=
  out_some (by rw [next_plain, plain.eq_def]; simp [h, h'])
theorem outP_quote (r : Bytes) : outP (34 :: r) = 34 :: outS r :=
  out_some (by rw [next_plain, plain.eq_def]; simp)
theorem outP_slash (c : Nat) (r : Bytes) (h : c ≠ 47) (h' : c ≠ 42) : outP (47 :: c :: r) = 47 :: c :: outP r := by
  rw [outP, out_some (c := 47) (s' := ⟨r, some c, false⟩) (by rw [next_plain, plain.eq_def]; simp [h, h']), out_stored]
theorem outP_slash_end : outP [47] = [47] := by
  rw [outP, out_some (c := 47) (s' := ⟨[], none, false⟩) (by rw [next_plain, plain.eq_def]; simp)]
  exact congrArg _ outP_nil
theorem outP_line (r : Bytes) : outP (47 :: 47 :: r) = outP (skipLine r) :=
  outP_congr (by rw [plain.eq_def]; simp)
theorem outP_block (r : Bytes) : outP (47 :: 42 :: r) = outP (skipBlock 0 r) :=
  outP_congr (by rw [plain.eq_def]; simp)

theorem outS_nil : outS [] = [] := out_none rfl
theorem outS_raw {c : Nat} (r : Bytes) (h : c ≠ 34) (h' : c ≠ 92) : outS (c :: r) = c :: outS r :=
  out_some (by simp [next, h, h'])
theorem outS_quote (r : Bytes) : outS (34 :: r) = 34 :: outP r := out_some (by simp [next])
theorem outS_esc (c : Nat) (r : Bytes) : outS (92 :: c :: r) = 92 :: c :: outS r := by
  rw [outS, out_some (c := 92) (s' := ⟨r, some c, true⟩) (by simp [next]), out_stored]
theorem outS_back : outS [92] = [92] := by
  rw [outS, out_some (c := 92) (s' := ⟨[], none, true⟩) (by simp [next])]
  exact congrArg _ outS_nil

theorem skipLine_text (t r : Bytes) (nl : Nat) (h : ∀ c ∈ t, c ≠ 13 ∧ c ≠ 10) (hn : nl = 13 ∨ nl = 10) :
    skipLine (t ++ nl :: r) = r := by
  induction t with
  | nil => simp only [List.nil_append, skipLine]; rw [if_pos hn]
  | cons c t ih =>
    have := h c List.mem_cons_self
    rw [List.cons_append, skipLine, if_neg (by omega)]
    exact ih (fun c hc => h c (List.mem_cons_of_mem _ hc))

theorem skipLine_end (t : Bytes) (h : ∀ c ∈ t, c ≠ 13 ∧ c ≠ 10) : skipLine t = [] := by
  induction t with
  | nil => rfl
  | cons c t ih =>
    have := h c List.mem_cons_self
    rw [skipLine, if_neg (by omega)]
    exact ih (fun c hc => h c (List.mem_cons_of_mem _ hc))

theorem skipBlock_end (t : Bytes) : ∀ p, ¬ [42, 47] <:+: p :: t → skipBlock p t = [] := by
  induction t with
  | nil => exact fun _ _ => rfl
  | cons c t ih =>
    intro p h
    rw [skipBlock, if_neg]
    · exact ih c (fun ⟨a, b, e⟩ => h ⟨p :: a, b, by rw [← e]; simp⟩)
    · rintro ⟨rfl, rfl⟩
      exact h ⟨[], t, rfl⟩

theorem skipBlock_text (t r : Bytes) : ∀ p, ¬ [42, 47] <:+: p :: t → skipBlock p (t ++ 42 :: 47 :: r) = r := by
  induction t with
  | nil =>
    intro p _
    simp [skipBlock]
  | cons c t ih =>
    intro p h
    rw [List.cons_append, skipBlock, if_neg]
    · exact ih c (fun ⟨a, b, e⟩ => h ⟨p :: a, b, by rw [← e]; simp⟩)
    · rintro ⟨rfl, rfl⟩
      exact h ⟨[], t, rfl⟩

theorem infix_zero {t : Bytes} (h : ¬ [42, 47] <:+: t) : ¬ [42, 47] <:+: 0 :: t := by
  rintro ⟨a, b, e⟩
  cases a with
  | nil => cases e
  | cons x a =>
    simp only [List.cons_append, List.cons.injEq] at e
    exact h ⟨a, b, e.2⟩

theorem outS_items (l : List SItem) (h : ∀ x ∈ l, x.WF) (r : Bytes) :
    outS (l.flatMap SItem.text ++ r) = l.flatMap SItem.text ++ outS r := by
  induction l with
  | nil => rfl
  | cons x l ih =>
    have hx := h x List.mem_cons_self
    rw [List.flatMap_cons, List.append_assoc, List.append_assoc]
    have ih := ih (fun y hy => h y (List.mem_cons_of_mem _ hy))
    cases x with
    | raw c => simp only [SItem.text, List.cons_append, List.nil_append]; rw [outS_raw _ hx.1 hx.2, ih]
    | esc c => simp only [SItem.text, List.cons_append, List.nil_append]; rw [outS_esc, ih]

theorem outP_piece (p : Piece) (h : p.WF) (r : Bytes) : outP (p.text ++ r) = p.kept ++ outP r := by
  cases p with
  | ch c => exact outP_ch r h.1 h.2
  | slash c => exact outP_slash c r h.2.1 h.2.2
  | str l =>
    simp only [Piece.text, Piece.kept, List.cons_append, List.append_assoc, List.nil_append]
    rw [outP_quote, outS_items l h, outS_quote]
  | line t nl =>
    simp only [Piece.text, Piece.kept, List.cons_append, List.append_assoc, List.nil_append]
    rw [outP_line, skipLine_text t r nl h.1 h.2]
  | block t =>
    simp only [Piece.text, Piece.kept, List.cons_append, List.append_assoc, List.nil_append]
    rw [outP_block, skipBlock_text t r 0 (infix_zero h)]

theorem outP_tail (p : Tail) (h : p.WF) : outP p.text = p.kept := by
  cases p with
  | none => exact outP_nil
  | slash => exact outP_slash_end
  | str l b =>
    simp only [Tail.text, Tail.kept]
    rw [outP_quote, outS_items l h]
    cases b with
    | true => exact congrArg (fun z => 34 :: (l.flatMap SItem.text ++ z)) outS_back
    | false => exact congrArg (fun z => 34 :: (l.flatMap SItem.text ++ z)) outS_nil
  | line t => simp only [Tail.text, Tail.kept]; rw [outP_line, skipLine_end t h, outP_nil]
  | block t => simp only [Tail.text, Tail.kept]; rw [outP_block, skipBlock_end t 0 (infix_zero h), outP_nil]

theorem outP_pieces (ps : List Piece) (h : ∀ p ∈ ps, p.WF) (r : Bytes) :
    outP (ps.flatMap Piece.text ++ r) = ps.flatMap Piece.kept ++ outP r := by
  induction ps with
  | nil => rfl
  | cons p ps ih =>
    rw [List.flatMap_cons, List.append_assoc, outP_piece p (h p List.mem_cons_self),
      ih (fun q hq => h q (List.mem_cons_of_mem _ hq)), List.flatMap_cons, List.append_assoc]

/-- **C49.** Exactly the comments are removed: strings (with anything that looks like a comment inside), other characters and
slashes which start no comment are kept; an unfinished comment is removed, an unfinished string kept. -/
theorem C49_removes_exactly_comments (ps : List Piece) (tail : Tail) (h : ∀ p ∈ ps, p.WF) (ht : tail.WF) :
    removeComments (ps.flatMap Piece.text ++ tail.text) = ps.flatMap Piece.kept ++ tail.kept := by
  show outP _ = _
  rw [outP_pieces ps h, outP_tail tail ht]

/-- `[1,/*a"*/2]//x` and the string `"//\""`. -/
example : removeComments (ascii "[1,/*a\"*/2,\"//\\\"\"]//x\n 3/4 /**/ /*/ */5") = ascii "[1,2,\"//\\\"\"] 3/4  5" := by
  have := C49_removes_exactly_comments
    [.ch 91, .ch 49, .ch 44, .block [97, 34], .ch 50, .ch 44, .str [.raw 47, .raw 47, .esc 34], .ch 93, .line [120] 10, .ch 32, .ch 51,
      .slash 52, .ch 32, .block [], .ch 32, .block [47, 32], .ch 53] .none (by simp [Piece.WF, SItem.WF]; decide) trivial
  exact this

/-- Splitting a text behind a quote: up to the closing quote, or unfinished. -/
theorem split_string (t : Bytes) : (∃ (l : List SItem) (r : Bytes), (∀ x ∈ l, SItem.WF x) ∧ t = l.flatMap SItem.text ++ 34 :: r) ∨
    (∃ (l : List SItem) (b : Bool), (∀ x ∈ l, SItem.WF x) ∧ t = l.flatMap SItem.text ++ if b then [92] else []) := by
  induction h : t.length using Nat.strongRecOn generalizing t with
  | _ n ih =>
    subst h
    match t with
    | [] => exact Or.inr ⟨[], false, by simp, rfl⟩
    | [c] =>
      by_cases h1 : c = 34
      · subst h1; exact Or.inl ⟨[], [], by simp, rfl⟩
      · by_cases h2 : c = 92
        · subst h2; exact Or.inr ⟨[], true, by simp, rfl⟩
        · exact Or.inr ⟨[.raw c], false, by simp [SItem.WF, h1, h2], rfl⟩
    | c :: d :: r =>
      by_cases h1 : c = 34
      · subst h1; exact Or.inl ⟨[], d :: r, by simp, rfl⟩
      · by_cases h2 : c = 92
        · subst h2
          rcases ih r.length (by simp; omega) r rfl with ⟨l, r', hl, e⟩ | ⟨l, b, hl, e⟩
          · exact Or.inl ⟨.esc d :: l, r', by simpa [SItem.WF] using hl, by simp [SItem.text, e]⟩
          · exact Or.inr ⟨.esc d :: l, b, by simpa [SItem.WF] using hl, by simp [SItem.text, e]⟩
        · rcases ih (d :: r).length (by simp) (d :: r) rfl with ⟨l, r', hl, e⟩ | ⟨l, b, hl, e⟩
          · exact Or.inl ⟨.raw c :: l, r', by simpa [SItem.WF, h1, h2] using hl, by simp [SItem.text, e]⟩
          · exact Or.inr ⟨.raw c :: l, b, by simpa [SItem.WF, h1, h2] using hl, by simp [SItem.text, e]⟩

theorem split_line (t : Bytes) : (∀ c ∈ t, c ≠ 13 ∧ c ≠ 10) ∨
    ∃ a nl r, t = a ++ nl :: r ∧ (∀ c ∈ a, c ≠ 13 ∧ c ≠ 10) ∧ (nl = 13 ∨ nl = 10) := by
  induction t with
  | nil => exact Or.inl (by simp)
  | cons c t ih =>
    by_cases h : c = 13 ∨ c = 10
    · exact Or.inr ⟨[], c, t, rfl, by simp, h⟩
    · have hc : c ≠ 13 ∧ c ≠ 10 := by omega
      rcases ih with ih | ⟨a, nl, r, e, h1, h2⟩
      · exact Or.inl (by simpa [hc] using ih)
      · exact Or.inr ⟨c :: a, nl, r, by rw [e]; rfl, by simpa [hc] using h1, h2⟩

theorem split_block (t : Bytes) : ¬ [42, 47] <:+: t ∨ ∃ a r, t = a ++ 42 :: 47 :: r ∧ ¬ [42, 47] <:+: a := by
  induction h : t.length using Nat.strongRecOn generalizing t with
  | _ n ih =>
    subst h
    by_cases hi : [42, 47] <:+: t
    · obtain ⟨a, b, e⟩ := hi
      have e' : t = a ++ 42 :: 47 :: b := by rw [← e]; simp
      rcases ih a.length (by rw [e']; simp) a rfl with h | ⟨a', r, e2, h⟩
      · exact Or.inr ⟨a, b, e', h⟩
      · exact Or.inr ⟨a', r ++ 42 :: 47 :: b, by rw [e', e2]; simp, h⟩
    · exact Or.inl hi

/-- Every text is of the described form, up to a slash directly followed by a quote outside of strings and comments
(which occurs in no JSON text). -/
theorem C49_every_text (t : Bytes) : (∃ (ps : List Piece) (tail : Tail), (∀ p ∈ ps, p.WF) ∧ Tail.WF tail ∧ t = ps.flatMap Piece.text ++ tail.text) ∨
    ∃ (ps : List Piece) (r : Bytes), (∀ p ∈ ps, Piece.WF p) ∧ t = ps.flatMap Piece.text ++ 47 :: 34 :: r := by
  induction h : t.length using Nat.strongRecOn generalizing t with
  | _ n ih =>
    subst h
    have step : ∀ (p : Piece) (r : Bytes), p.WF → t = p.text ++ r → r.length < t.length →
        (∃ (ps : List Piece) (tail : Tail), (∀ p ∈ ps, p.WF) ∧ Tail.WF tail ∧ t = ps.flatMap Piece.text ++ tail.text) ∨
        ∃ (ps : List Piece) (r : Bytes), (∀ p ∈ ps, Piece.WF p) ∧ t = ps.flatMap Piece.text ++ 47 :: 34 :: r := by
      intro p r hp e hlt
      rcases ih r.length hlt r rfl with ⟨ps, tail, h1, h2, h3⟩ | ⟨ps, r', h1, h3⟩
      · exact Or.inl ⟨p :: ps, tail, by simpa [hp] using h1, h2, by rw [e, h3]; simp⟩
      · exact Or.inr ⟨p :: ps, r', by simpa [hp] using h1, by rw [e, h3]; simp⟩
    have last : ∀ tail : Tail, tail.WF → t = tail.text →
        (∃ (ps : List Piece) (tail : Tail), (∀ p ∈ ps, p.WF) ∧ Tail.WF tail ∧ t = ps.flatMap Piece.text ++ tail.text) ∨
        ∃ (ps : List Piece) (r : Bytes), (∀ p ∈ ps, Piece.WF p) ∧ t = ps.flatMap Piece.text ++ 47 :: 34 :: r :=
      fun tail h1 h2 => Or.inl ⟨[], tail, by simp, h1, h2⟩
    match t with
    | [] => exact last .none trivial rfl
    | c :: r =>
      by_cases h1 : c = 34
      · subst h1
        rcases split_string r with ⟨l, r', hl, e⟩ | ⟨l, b, hl, e⟩
        · exact step (.str l) r' hl (by rw [e]; simp [Piece.text]) (by rw [e]; simp; omega)
        · exact last (.str l b) hl (by rw [e]; rfl)
      · by_cases h2 : c = 47
        · subst h2
          match r with
          | [] => exact last .slash trivial rfl
          | d :: r =>
            by_cases d1 : d = 47
            · subst d1
              rcases split_line r with h | ⟨a, nl, r', e, h, hn⟩
              · exact last (.line r) h rfl
              · exact step (.line a nl) r' ⟨h, hn⟩ (by rw [e]; simp [Piece.text]) (by rw [e]; simp; omega)
            · by_cases d2 : d = 42
              · subst d2
                rcases split_block r with h | ⟨a, r', e, h⟩
                · exact last (.block r) h rfl
                · exact step (.block a) r' h (by rw [e]; simp [Piece.text]) (by rw [e]; simp; omega)
              · by_cases d3 : d = 34
                · subst d3
                  exact Or.inr ⟨[], r, by simp, rfl⟩
                · exact step (.slash d) r ⟨d3, d1, d2⟩ rfl (by simp; omega)
        · exact step (.ch c) r ⟨h1, h2⟩ rfl (by simp)

/-- **C49, violation.** A quote behind a slash is not recognised: in this text without comments the string is cut. -/
theorem C49_violation_slash_quote : removeComments (ascii "/\"//\"") = ascii "/\"" := by
  have e : ascii "/\"//\"" = [47, 34, 47, 47, 34] := rfl
  rw [e]
  show outP _ = _
  rw [outP_slash _ _ (by decide) (by decide), outP_line, show skipLine [34] = [] from rfl, outP_nil]; rfl

/-! ### JSON texts pass unchanged -/

/-- Consists of pieces, none of them a comment. -/
def Clean (t : Bytes) : Prop := ∃ ps : List Piece, (∀ p ∈ ps, p.WF ∧ p.kept = p.text) ∧ t = ps.flatMap Piece.text

theorem Clean.nil : Clean [] := ⟨[], by simp, rfl⟩
theorem Clean.app {a b : Bytes} : Clean a → Clean b → Clean (a ++ b) := by
  rintro ⟨p, h, rfl⟩ ⟨q, h', rfl⟩
  exact ⟨p ++ q, fun x hx => (List.mem_append.1 hx).elim (h x) (h' x), by simp⟩
theorem Clean.chars {l : Bytes} (h : ∀ c ∈ l, c ≠ 34 ∧ c ≠ 47) : Clean l :=
  ⟨l.map .ch, by simpa [Piece.WF, Piece.kept, and_assoc] using h, by induction l with
    | nil => rfl
    | cons c l ih => simpa [Piece.text] using ih (fun c hc => h c (List.mem_cons_of_mem _ hc))⟩
theorem Clean.cons {c : Nat} {b : Bytes} (h : c ≠ 34 ∧ c ≠ 47) (hb : Clean b) : Clean (c :: b) :=
  Clean.app (a := [c]) (.chars (by simpa using h)) hb
theorem Clean.ws {w : Bytes} (h : Ws w) : Clean w := .chars (fun c hc => by have := h c hc; omega)

theorem Clean.removed {t : Bytes} (h : Clean t) : removeComments t = t := by
  obtain ⟨ps, h, rfl⟩ := h
  have := C49_removes_exactly_comments ps .none (fun p hp => (h p hp).1) trivial
  simp only [Tail.text, Tail.kept, List.append_nil] at this
  rw [this]
  clear this
  induction ps with
  | nil => rfl
  | cons p ps ih =>
    rw [List.flatMap_cons, List.flatMap_cons, (h p List.mem_cons_self).2, ih (fun q hq => h q (List.mem_cons_of_mem _ hq))]

/-- Body of a string. -/
def Body (t : Bytes) : Prop := ∃ l : List SItem, (∀ x ∈ l, x.WF) ∧ t = l.flatMap SItem.text
theorem Body.app {a b : Bytes} : Body a → Body b → Body (a ++ b) := by
  rintro ⟨p, h, rfl⟩ ⟨q, h', rfl⟩
  exact ⟨p ++ q, fun x hx => (List.mem_append.1 hx).elim (h x) (h' x), by simp⟩
theorem Body.raws {l : Bytes} (h : ∀ c ∈ l, c ≠ 34 ∧ c ≠ 92) : Body l :=
  ⟨l.map .raw, by simpa [SItem.WF] using h, by induction l with
    | nil => rfl
    | cons c l ih => simpa [SItem.text] using ih (fun c hc => h c (List.mem_cons_of_mem _ hc))⟩
theorem Body.esc (c : Nat) : Body [92, c] := ⟨[.esc c], by simp [SItem.WF], rfl⟩
theorem Body.clean {t : Bytes} : Body t → Clean (34 :: (t ++ [34])) := by
  rintro ⟨l, h, rfl⟩
  exact ⟨[.str l], by simpa [Piece.WF, Piece.kept] using h, by simp [Piece.text]⟩

theorem utf8_raw {w : Nat} (hw : w ≠ 34) (hw' : w ≠ 92) : ∀ c ∈ utf8 w, c ≠ 34 ∧ c ≠ 92 := by
  unfold utf8
  intro c hc
  split at hc
  · simp only [List.mem_singleton] at hc; omega
  · split at hc
    · simp only [List.mem_cons, List.not_mem_nil, or_false] at hc; omega
    · split at hc <;> (simp only [List.mem_cons, List.not_mem_nil, or_false] at hc; omega)

theorem hex_raw {c v : Nat} (h : HexDig c v) : c ≠ 34 ∧ c ≠ 92 := by cases h <;> omega

theorem esc4_body {x : Bytes} {w : Nat} (h : Esc4 x w) : Body x := by
  cases h with
  | mk ha hb hc hd =>
    refine Body.app (a := [92, 117]) (.esc _) (.raws ?_)
    simp only [List.mem_cons, List.not_mem_nil, or_false]
    rintro y (rfl | rfl | rfl | rfl)
    · exact hex_raw ha
    · exact hex_raw hb
    · exact hex_raw hc
    · exact hex_raw hd

theorem strBody_body {pairs : Prop} {t s : Bytes} (h : StrBody pairs t s) : Body t := by
  induction h with
  | nil => exact ⟨[], by simp, rfl⟩
  | raw h1 h2 h3 h4 _ ih => exact (Body.raws (utf8_raw h3 h4)).app ih
  | esc _ _ ih => exact (Body.esc _).app ih
  | uni h _ _ ih => exact (esc4_body h).app ih
  | pair _ h1 _ _ h2 _ _ _ ih => exact (esc4_body h1).app ((esc4_body h2).app ih)

theorem num_clean {t : NumTok} (h : t.WF) : Clean t.text := by
  have hd : ∀ {l : Bytes}, Digits1 l → ∀ c ∈ l, c ≠ 34 ∧ c ≠ 47 := fun hl c hc => by
    have := hl.2 c hc; unfold IsDig at this; omega
  apply Clean.app
  · apply Clean.chars; cases t.neg <;> simp
  · apply Clean.app (.chars (hd h.int.1))
    apply Clean.app
    · have := h.frac
      cases e : t.frac with
      | none => exact .nil
      | some f => exact .cons (by omega) (.chars (hd (this f (by rw [e]; rfl))))
    · have := h.exp
      cases e : t.exp with
      | none => exact .nil
      | some f =>
        obtain ⟨h1, h2, h3⟩ := this f (by rw [e]; rfl)
        refine .cons (by omega) (.app (.chars ?_) (.chars (hd h3)))
        rcases h2 with h2 | h2 | h2 <;> rw [h2] <;> simp

mutual
theorem jval_clean {pairs : Prop} {t : Bytes} {v : SJ} : JVal pairs t v → Clean t
  | .null => .chars (by decide)
  | .true => .chars (by decide)
  | .false => .chars (by decide)
  | .num h => num_clean h
  | .str h => (strBody_body h).clean
  | .arr0 h => .cons (by omega) (.app (.ws h) (.chars (by simp)))
  | .arr h => .cons (by omega) (.app (jelems_clean h) (.chars (by simp)))
  | .obj0 h => .cons (by omega) (.app (.ws h) (.chars (by simp)))
  | .obj h => .cons (by omega) (.app (jmembs_clean h) (.chars (by simp)))
theorem jelems_clean {pairs : Prop} {t : Bytes} {v : List SJ} : JElems pairs t v → Clean t
  | .one h1 h2 h3 => .app (.ws h1) (.app (jval_clean h2) (.ws h3))
  | .cons h1 h2 h3 h4 => .app (.ws h1) (.app (jval_clean h2) (.app (.ws h3) (.cons (by omega) (jelems_clean h4))))
theorem jmembs_clean {pairs : Prop} {t : Bytes} {v : List (Bytes × SJ)} : JMembs pairs t v → Clean t
  | .one (k := k) h1 h2 h3 h4 h5 h6 => by
    have := (Clean.ws h1).app ((strBody_body h2).clean.app ((Clean.ws h3).app (.cons (c := 0x3A) (by omega)
      ((Clean.ws h4).app ((jval_clean h5).app (.ws h6))))))
    simpa using this
  | .cons (k := k) h1 h2 h3 h4 h5 h6 h7 => by
    have := (Clean.ws h1).app ((strBody_body h2).clean.app ((Clean.ws h3).app (.cons (c := 0x3A) (by omega)
      ((Clean.ws h4).app ((jval_clean h5).app ((Clean.ws h6).app (.cons (c := 0x2C) (by omega) (jmembs_clean h7))))))))
    simpa using this
end

/-- **C49.** JSON texts pass unchanged. -/
theorem C49_json_unchanged (pairs : Prop) (t : Bytes) (v : SJ) (h : JText pairs t v) : removeComments t = t := by
  cases h with
  | mk h1 h2 h3 => exact (Clean.app (.ws h1) (.app (jval_clean h2) (.ws h3))).removed

example : JText True (ascii "\"//\"") (.str (ascii "//")) := by
  have h : StrBody True [0x2F, 0x2F] [0x2F, 0x2F] := .raw (w := 0x2F) (Or.inl (by decide)) (by decide) (by decide) (by decide)
    (.raw (w := 0x2F) (Or.inl (by decide)) (by decide) (by decide) (by decide) .nil)
  exact JText.mk (w := []) (w' := []) (by simp [Ws]) (.str h) (by simp [Ws])

/-- **C49.** A commented document is parsed as the document without comments. -/
theorem C49_parses_like_uncommented (cfg : Parser.Cfg) (ps : List Piece) (tail : Tail) (h : ∀ p ∈ ps, p.WF) (ht : tail.WF) :
    Parser.parse cfg (removeComments (ps.flatMap Piece.text ++ tail.text)) =
      Parser.parse cfg (ps.flatMap Piece.kept ++ tail.kept) := by
  rw [C49_removes_exactly_comments ps tail h ht]

example : (∀ p ∈ [Piece.ch 91, .block [97, 34], .str [.raw 47, .esc 34], .ch 93], p.WF) ∧ (Tail.line [120]).WF := by
  simp [Piece.WF, SItem.WF, Tail.WF]; decide

end Imt.Props
