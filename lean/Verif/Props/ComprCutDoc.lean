import Verif.Props.ComprCut
import Verif.Props.Cut
/-!
# Compressed documents cut short (C173)
-/
namespace Imt.Props
open Imt Imt.Spec Imt.Parser Imt.Compr

/-- What may become of a document of the value `v` that was cut: the decompressor reports an error, or the parser does, or it is the value. -/
def SafeCut (cfg : Cfg) (v : JV) (r : Res (Bytes × Dec)) : Prop :=
  r = .err ∨ ∃ t e, r = .ok (t, e) ∧ (parse cfg t = .err ∨ parse cfg t = .ok (v, []))

theorem parse_first {cfg : Cfg} {t t' : Bytes} {v : JV} (h : parse cfg t = .ok (v, [])) (hn : ¬ BeginsNumber t) (hp : t' <+: t) :
    parse cfg t' = .err ∨ parse cfg t' = .ok (v, []) := by
  obtain ⟨q, rfl⟩ := hp
  by_cases hq : q = []
  · subst hq
    rw [List.append_nil] at h
    exact Or.inr h
  · exact Or.inl (C170_text cfg t' q v [] h hn (List.length_pos_of_ne_nil hq))

/-- **C173, short documents.** The compressed form of a document of at most 139 bytes (whose value is no number), cut at any place: the
decompressor or the parser reports an error, or the value is that of the document. Missing: longer documents cut inside a code of two bytes
(`C173_violation`) and numbers (`C173_violation_number`). -/
theorem C173_short_partial (cfg : Cfg) (t : Bytes) (v : JV) (hu : WellFormedUtf8 t) (hc : ∀ b ∈ t, 32 ≤ b) (h : parse cfg t = .ok (v, []))
    (hn : ¬ BeginsNumber t) (hl : t.length ≤ 139) (k : Nat) :
    ∃ out, compressAll t = .ok out ∧ SafeCut cfg v (getAll (t.length + 1) { inp := out.take k }) := by
  obtain ⟨out, h1, h2⟩ := C172_short_partial t hu hc hl k
  refine ⟨out, h1, ?_⟩
  rcases h2 with ⟨t', e, g1, g2⟩ | g
  · exact Or.inr ⟨t', e, g1, parse_first h hn g2⟩
  · exact Or.inl g

/-- **C173, documents of any length cut between codes.** Missing: as in `C173_short_partial`. -/
theorem C173_any_partial (cfg : Cfg) (t : Bytes) (v : JV) (hu : WellFormedUtf8 t) (hc : ∀ b ∈ t, 32 ≤ b) (h : parse cfg t = .ok (v, []))
    (hn : ¬ BeginsNumber t) :
    ∃ cs, compressAll t = .ok (cs.flatMap wr) ∧ ∀ a, a <+: cs → SafeCut cfg v (getAll (t.length + 1) { inp := a.flatMap wr }) := by
  obtain ⟨cs, h1, h2⟩ := C172_any_partial t hu hc
  refine ⟨cs, h1, fun a ha => ?_⟩
  obtain ⟨t', e, g1, g2⟩ := h2 a ha
  exact Or.inr ⟨t', e, g1, parse_first h hn g2⟩

theorem sym_last {s s' : Comp} {c : Nat} (h : compressSym s c = .ok s') : s'.lastSeq ≠ none := by
  unfold compressSym at h
  split at h
  · cases h
  · split at h
    · cases h; simp
    · split at h
      · cases h; simp
      · split at h
        · cases h; simp
        · unfold advance at h
          dsimp only at h
          split at h
          · cases h; simp
          · obtain ⟨s1, -, h2⟩ := dbind_inv h
            cases h2; simp

theorem put_last {s s' : Comp} {c : Nat} (h : put s c = .ok s') : s'.lastSeq ≠ none := by
  have two : ∀ a b n, compress2 s a b n = .ok s' → s'.lastSeq ≠ none := by
    intro a b n h2
    unfold compress2 at h2
    obtain ⟨s1, -, h3⟩ := dbind_inv h2
    obtain ⟨s2, h4, h5⟩ := dbind_inv h3
    cases h5
    exact (sym_last h4 : s2.lastSeq ≠ none)
  unfold put at h
  repeat' split at h
  all_goals first
    | exact two _ _ _ h
    | exact sym_last h
    | cases h

theorem putAll_last : ∀ (t : Bytes) {s s' : Comp}, (t ≠ [] ∨ s.lastSeq ≠ none) → putAll s t = .ok s' → s'.lastSeq ≠ none := by
  intro t
  induction t with
  | nil => intro s s' h hp; cases hp; exact h.resolve_left (fun h => h rfl)
  | cons c t ih =>
    intro s s' _ hp
    rw [putAll] at hp
    obtain ⟨s1, h1, h2⟩ := dbind_inv hp
    exact ih (Or.inr (put_last h1)) h2

/-- **C173, the mark of the end.** The compressed form of any document ends with two bytes 0xFF (the mark of the end); without them, or
one of them, the value is read all the same. -/
theorem C173_end (cfg : Cfg) (t : Bytes) (v : JV) (hu : WellFormedUtf8 t) (hc : ∀ b ∈ t, 32 ≤ b) (h : parse cfg t = .ok (v, [])) :
    ∃ out, compressAll t = .ok (out ++ [255, 255]) ∧ (∃ e, getAll (t.length + 1) { inp := out } = .ok (t, e)) ∧
      ∃ e, getAll (t.length + 1) { inp := out ++ [255] } = .ok (t, e) := by
  obtain ⟨o, d, h1, h2⟩ := C50_round_trip t hu hc
  have hne : t ≠ [] := by
    rintro rfl
    have : parse cfg [] = .err := by rfl
    rw [this] at h; cases h
  obtain ⟨out, rfl⟩ : ∃ out, o = out ++ [255, 255] := by
    unfold compressAll at h1
    obtain ⟨s, g1, g2⟩ := dbind_inv h1
    have g2 := Res.ok.inj g2
    unfold finish at g2
    cases hs : s.lastSeq with
    | none => exact absurd hs (putAll_last t (Or.inl hne) g1)
    | some q =>
      rw [hs] at g2
      exact ⟨(s.write q).out, g2.symm⟩
  refine ⟨out, h1, (C172_end {} out 2 _ t).2 ⟨d, h2⟩, ?_⟩
  refine (C172_end {} (out ++ [255]) 1 _ t).2 ⟨d, ?_⟩
  rw [List.append_assoc]
  exact h2

/-- The item of the array in the document of the violation: 278 letters. -/
def cutItem : Bytes := [
  97, 109, 110, 98, 105, 113, 112, 109, 106, 112, 108, 103, 113, 101, 106, 101, 100, 105, 101, 108, 100, 99, 107, 112, 100, 110, 111, 107, 103, 112, 105, 106,
  98, 97, 99, 110, 97, 114, 107, 105, 110, 104, 99, 103, 104, 105, 112, 99, 112, 110, 107, 98, 100, 103, 114, 114, 113, 100, 102, 114, 101, 111, 100, 109,
  108, 105, 114, 108, 108, 110, 103, 105, 98, 109, 112, 106, 104, 106, 103, 99, 100, 100, 97, 107, 110, 105, 107, 99, 98, 111, 102, 101, 97, 113, 98, 113,
  114, 106, 111, 105, 109, 101, 109, 114, 100, 106, 113, 109, 104, 109, 102, 112, 111, 111, 112, 104, 98, 104, 111, 98, 108, 111, 114, 104, 102, 100, 98, 103,
  98, 102, 104, 101, 104, 110, 99, 99, 102, 111, 103, 97, 108, 113, 108, 112, 98, 98, 99, 105, 99, 111, 99, 109, 98, 101, 113, 97, 101, 101, 99, 106,
  102, 113, 99, 114, 97, 110, 110, 101, 107, 100, 108, 98, 110, 112, 113, 104, 97, 111, 113, 102, 109, 99, 108, 102, 103, 107, 109, 103, 103, 100, 114, 102,
  99, 104, 108, 99, 113, 107, 102, 97, 106, 108, 107, 114, 109, 111, 104, 107, 107, 101, 110, 113, 103, 108, 114, 98, 112, 112, 97, 103, 102, 102, 107, 106,
  106, 109, 109, 113, 106, 110, 106, 105, 108, 97, 97, 105, 100, 113, 111, 101, 102, 105, 111, 109, 107, 113, 110, 100, 111, 110, 102, 106, 107, 97, 102, 110,
  108, 109, 105, 104, 113, 105, 97, 112, 103, 109, 100, 101, 112, 102, 98, 114, 103, 101, 114, 111, 106, 97]

/-- The document `[["…"],"YZnh"]`. -/
def cutDoc : Bytes := ascii "[[\"" ++ cutItem ++ ascii "\"],\"YZnh\"]"

/-- The run of the violation. -/
def cutRun : Bool :=
  match compressAll cutDoc with
  | .ok out => out.length == 293 && decide (told (getAll 292 { inp := out.take 288 }) = some (ascii "[[\"" ++ cutItem ++ ascii "\"],\"YZ\"]"))
  | _ => false

theorem cutRun_true : cutRun = true := by decide +kernel

theorem told_some {r : Res (Bytes × Dec)} {t : Bytes} (h : told r = some t) : ∃ e, r = .ok (t, e) := by
  unfold told at h
  split at h
  · cases h; exact ⟨_, rfl⟩
  · cases h

/-- **C173, what goes wrong.** The compressed form of the document `[["…"],"YZnh"]` with 278 letters in the place of the dots has 293 bytes. The
first 288 of them are read, without any error, as the document `[["…"],"YZ"]`. -/
theorem C173_violation : (∃ out e, compressAll cutDoc = .ok out ∧ out.length = 293 ∧
      getAll (cutDoc.length + 1) { inp := out.take 288 } = .ok (ascii "[[\"" ++ cutItem ++ ascii "\"],\"YZ\"]", e)) ∧
    parse {} cutDoc = .ok (.arr [.arr [.str cutItem], .str (ascii "YZnh")], []) ∧
    parse {} (ascii "[[\"" ++ cutItem ++ ascii "\"],\"YZ\"]") = .ok (.arr [.arr [.str cutItem], .str (ascii "YZ")], []) := by
  refine ⟨?_, by decide +kernel, by decide +kernel⟩
  have h := cutRun_true
  unfold cutRun at h
  split at h
  · rename_i out h1
    obtain ⟨h2, h3⟩ := Bool.and_eq_true_iff.1 h
    obtain ⟨e, h4⟩ := told_some (of_decide_eq_true h3)
    refine ⟨out, e, h1, by simpa using h2, ?_⟩
    rw [show cutDoc.length + 1 = 292 by decide +kernel]
    exact h4
  · exact absurd h (by decide)

/-- **C173 for numbers.** The compressed form of the number 12, cut after its first byte, is read as 1. -/
theorem C173_violation_number : compressAll (ascii "12") = .ok [23, 24, 255, 255] ∧ (∃ e, getAll 3 { inp := [23] } = .ok (ascii "1", e)) ∧
    parse {} (ascii "12") = .ok (.num (.uint 12), []) ∧ parse {} (ascii "1") = .ok (.num (.uint 1), []) := by
  refine ⟨by decide +kernel, told_some (by decide +kernel), by decide +kernel, by decide +kernel⟩

/-- A document which meets the hypotheses. -/
example : WellFormedUtf8 (ascii "[1,\"a\"]") ∧ (∀ b ∈ ascii "[1,\"a\"]", 32 ≤ b) ∧
    parse {} (ascii "[1,\"a\"]") = .ok (.arr [.num (.uint 1), .str (ascii "a")], []) ∧ ¬ BeginsNumber (ascii "[1,\"a\"]") ∧
    (ascii "[1,\"a\"]").length ≤ 139 := by
  refine ⟨.one (by decide) (.one (by decide) (.one (by decide) (.one (by decide) (.one (by decide) (.one (by decide) (.one (by decide) .nil)))))),
    by decide +kernel, by decide +kernel, fun h => ?_, by decide⟩
  obtain ⟨c, r, h1, h2⟩ := head_of_begins h
  have : skipWs (ascii "[1,\"a\"]") = ascii "[1,\"a\"]" := by decide +kernel
  rw [this] at h1
  have hc : c = 91 := by
    have := congrArg List.head? h1
    simpa [ascii] using this.symm
  subst hc
  exact absurd h2 (by decide)

end Imt.Props
