import Verif.Props.Parser
import Verif.Props.Serializer
import Verif.Model.Stream
/-! # Several values in one stream: C126 -/
namespace Imt.Props
open Imt Parser Spec Ser Imt.Stream

/-- JSON texts one after another, each followed by white space or the end; the values the grammar assigns. -/
inductive Separated : Bytes → List SJ → Prop where
  | nil {w} : Ws w → Separated w []
  | last {w t v} : Ws w → JVal False t v → Separated (w ++ t) [v]
  | cons {w t v c s l} : Ws w → JVal False t v → Ws [c] → Separated s l → Separated (w ++ (t ++ c :: s)) (v :: l)

/-- JSON texts that are no numbers one after another, with or without white space before each; then anything. -/
inductive Adjacent (rest : Bytes) : Bytes → List SJ → Prop where
  | nil : Adjacent rest rest []
  | cons {w t v s l} : Ws w → JVal False t v → (∀ n, v ≠ .num n) → Adjacent rest s l → Adjacent rest (w ++ (t ++ s)) (v :: l)

theorem ahead_ws (w s : Bytes) (hw : Ws w) : ahead (w ++ s) = ahead s := by
  unfold ahead; rw [skipWs_ws _ _ hw]

theorem ahead_num {t : NumTok} (h : t.WF) (s : Bytes) : ahead (t.text ++ s) = true := by
  obtain ⟨c, r, e, hc⟩ := NumTok.head h
  rw [e]
  unfold IsDig at hc
  have hs : isSpace c = false := by
    rcases hc with hc | rfl
    · simp [isSpace]; omega
    · decide
  unfold ahead
  rw [List.cons_append, skipWs_head hs]
  rcases hc with hc | rfl
  · simp [isDigit]; omega
  · rfl

theorem ahead_own {t : Bytes} {v : SJ} (h : JVal False t v) (hv : ∀ n, v ≠ .num n) (s : Bytes) : ahead (t ++ s) = false := by
  cases h with
  | num _ => exact absurd rfl (hv _)
  | null => rfl
  | true => rfl
  | false => rfl
  | _ => rfl

theorem sep_ws {s : Bytes} {l : List SJ} (h : Separated s l) : ∀ w, Ws w → Separated (w ++ s) l := by
  intro w hw
  have app : ∀ {a b : Bytes}, Ws a → Ws b → Ws (a ++ b) := by
    intro a b ha hb c hc
    rcases List.mem_append.1 hc with h | h
    · exact ha c h
    · exact hb c h
  cases h with
  | nil h1 => exact .nil (app hw h1)
  | last h1 h2 => rw [← List.append_assoc]; exact .last (app hw h1) h2
  | cons h1 h2 h3 h4 => rw [← List.append_assoc]; exact .cons (app hw h1) h2 h3 h4

/-- One value of the stream, followed by white space or the end. -/
theorem readOne_sep (cfg : Cfg) {w t : Bytes} {v : SJ} (hw : Ws w) (h : JVal False t v) (hf : Fits cfg v) (r : Bytes)
    (hr : StopNum r) :
    ∃ r', readOne cfg (w ++ (t ++ r)) = .ok (interpV cfg v, r') ∧ (r' = r ∨ r' = r.drop 1) := by
  unfold readOne
  rw [parse_grammar cfg h hf w r hw hr]
  refine ⟨_, rfl, ?_⟩
  dsimp only
  split
  · exact Or.inr rfl
  · exact Or.inl rfl

theorem readOne_own (cfg : Cfg) {w t : Bytes} {v : SJ} (hw : Ws w) (h : JVal False t v) (hf : Fits cfg v) (r : Bytes)
    (hv : ∀ n, v ≠ .num n) : readOne cfg (w ++ (t ++ r)) = .ok (interpV cfg v, r) := by
  unfold readOne
  rw [parse_grammar_own cfg h hf hv w r hw, ahead_ws _ _ hw, ahead_own h hv]
  rfl

theorem readOne_end (cfg : Cfg) {w : Bytes} (hw : Ws w) : readOne cfg w = .err := by
  have : parse cfg w = .err := by
    unfold parse parseV
    have h := skipWs_ws w [] hw
    rw [List.append_nil] at h
    rw [h]; rfl
  unfold readOne; rw [this]; rfl

theorem stop_ws {c : Nat} {s : Bytes} (h : Ws [c]) : StopNum (c :: s) := by
  intro x y e
  simp only [List.cons.injEq] at e
  obtain ⟨rfl, -⟩ := e
  rcases h c (by simp) with rfl | rfl | rfl | rfl <;> decide

theorem readN_sep (cfg : Cfg) {s : Bytes} {l : List SJ} (h : Separated s l) (hf : ∀ v ∈ l, Fits cfg v) :
    ∃ r, readN cfg l.length s = .ok (l.map (interpV cfg), r) ∧ Ws r := by
  induction l generalizing s with
  | nil =>
    cases h with
    | nil hw => exact ⟨s, rfl, hw⟩
  | cons v l ih =>
    have hv := hf v (by simp)
    have go : ∀ r', Separated r' l → ∃ r, (do let xs ← readN cfg l.length r'; pure (interpV cfg v :: xs.1, xs.2)) =
        Res.ok ((v :: l).map (interpV cfg), r) ∧ Ws r := by
      intro r' hr'
      obtain ⟨r, h1, h2⟩ := ih hr' (fun x hx => hf x (by simp [hx]))
      exact ⟨r, by rw [h1]; rfl, h2⟩
    cases h with
    | last hw ht =>
      rename_i w t
      obtain ⟨r', h1, h2⟩ := readOne_sep cfg hw ht hv [] (by intro _ _ h; cases h)
      rw [List.append_nil] at h1
      have : r' = [] := by rcases h2 with h | h <;> simpa using h
      subst this
      obtain ⟨r, h3, h4⟩ := go [] (.nil ws_nil)
      refine ⟨r, ?_, h4⟩
      rw [List.length_cons, readN, h1]
      exact h3
    | cons hw ht hc hs =>
      rename_i w t c s
      obtain ⟨r', h1, h2⟩ := readOne_sep cfg hw ht hv (c :: s) (stop_ws hc)
      have : Separated r' l := by
        rcases h2 with h | h
        · rw [h]; exact sep_ws hs [c] hc
        · rw [h]; exact hs
      obtain ⟨r, h3, h4⟩ := go r' this
      refine ⟨r, ?_, h4⟩
      rw [List.length_cons, readN, h1]
      exact h3

/-- C126, the part that holds: JSON texts separated by white space are read one by one by consecutive calls of
`fromStream`, each value is the one the grammar assigns, only white space is left, and the next call reports the end of the
stream. The restrictions of `C05_accepts_partial` apply. Missing: texts that touch (violation below). -/
theorem C126_separated_partial (cfg : Cfg) (s : Bytes) (l : List SJ) (h : Separated s l)
    (hf : ∀ v ∈ l, NumsFit cfg v ∧ DupFree cfg v ∧ NoInf v) :
    ∃ xs r, readN cfg l.length s = .ok (xs, r) ∧ List.Forall₂ (Means cfg) l xs ∧ Ws r ∧ readOne cfg r = .err := by
  obtain ⟨r, h1, h2⟩ := readN_sep cfg h (fun v hv => ⟨(hf v hv).1, (hf v hv).2.1⟩)
  refine ⟨_, r, h1, ?_, h2, readOne_end cfg h2⟩
  rw [List.forall₂_map_right_iff]
  exact List.forall₂_same.2 (fun v hv => interpV_means cfg v (hf v hv).2.2)

theorem readN_adj (cfg : Cfg) {rest s : Bytes} {l : List SJ} (h : Adjacent rest s l) (hf : ∀ v ∈ l, Fits cfg v) :
    readN cfg l.length s = .ok (l.map (interpV cfg), rest) := by
  induction h with
  | nil => rfl
  | cons hw ht hv _ ih =>
    rw [List.length_cons, readN, readOne_own cfg hw ht (hf _ (by simp)) _ hv]
    rw [Res.bind_ok, ih (fun x hx => hf x (by simp [hx]))]
    rfl

/-- C126 for texts other than numbers: no separator is needed and the stream is left exactly behind the last text,
whatever follows (another protocol, binary data). -/
theorem C126_adjacent_partial (cfg : Cfg) (rest s : Bytes) (l : List SJ) (h : Adjacent rest s l)
    (hf : ∀ v ∈ l, NumsFit cfg v ∧ DupFree cfg v ∧ NoInf v) :
    ∃ xs, readN cfg l.length s = .ok (xs, rest) ∧ List.Forall₂ (Means cfg) l xs := by
  refine ⟨_, readN_adj cfg h (fun v hv => ⟨(hf v hv).1, (hf v hv).2.1⟩), ?_⟩
  rw [List.forall₂_map_right_iff]
  exact List.forall₂_same.2 (fun v hv => interpV_means cfg v (hf v hv).2.2)

/-- JSON texts one after another; white space is needed only where a text would continue a number. -/
inductive Delimited (rest : Bytes) : Bytes → List SJ → Prop where
  | nil : Delimited rest rest []
  | cons {w t v s l} : Ws w → JVal False t v → ((∃ n, v = .num n) → StopNum s) → Delimited rest s l →
      Delimited rest (w ++ (t ++ s)) (v :: l)

/-- C126 with one `Parser` for the whole stream: nothing is lost, numbers included. -/
theorem C126_one_parser_partial (cfg : Cfg) (rest s : Bytes) (l : List SJ) (h : Delimited rest s l)
    (hf : ∀ v ∈ l, NumsFit cfg v ∧ DupFree cfg v ∧ NoInf v) :
    ∃ xs, parseN cfg l.length s = .ok (xs, rest) ∧ List.Forall₂ (Means cfg) l xs := by
  have key : parseN cfg l.length s = .ok (l.map (interpV cfg), rest) := by
    induction h with
    | nil => rfl
    | cons hw ht hv _ ih =>
      rename_i w t v s l _
      have hf1 : Fits cfg v := ⟨(hf v (by simp)).1, (hf v (by simp)).2.1⟩
      have : parse cfg (w ++ (t ++ s)) = .ok (interpV cfg v, s) := by
        by_cases hn : ∃ n, v = .num n
        · exact parse_grammar cfg ht hf1 w s hw (hv hn)
        · exact parse_grammar_own cfg ht hf1 (fun n e => hn ⟨n, e⟩) w s hw
      rw [List.length_cons, parseN, this, Res.bind_ok, ih (fun x hx => hf x (by simp [hx]))]
      rfl
  refine ⟨_, key, ?_⟩
  rw [List.forall₂_map_right_iff]
  exact List.forall₂_same.2 (fun v hv => interpV_means cfg v (hf v hv).2.2)

/-- C126 for values written by the library: any list of values written with `toStream`, each followed by a separator
beginning with a white-space character, is read back by as many calls of `fromStream`, whatever the source and the
format (the restrictions of C01 and C02 apply). -/
theorem C126_written_partial (u8 : Bool) (f : Decimal → Bytes) (cfg : Cfg) (htl : ∀ n < 2 ^ 64, cfg.tooLong n = false)
    (c : Nat) (w : Bytes) (hc : Ws (c :: w)) (l : List JV) (h : ∀ v ∈ l, Printable u8 f v ∧ Tripable cfg v) :
    ∃ t xs r, writeAll u8 f (c :: w) l = .ok t ∧ readN cfg l.length t = .ok (xs, r) ∧ List.Forall₂ (Reads cfg) l xs ∧
      Ws r ∧ readOne cfg r = .err := by
  have key : ∃ t js, writeAll u8 f (c :: w) l = .ok t ∧ Separated t js ∧ (∀ j ∈ js, Fits cfg j) ∧
      List.Forall₂ (fun v j => Reads cfg v (interpV cfg j)) l js := by
    induction l with
    | nil => exact ⟨[], [], rfl, .nil ws_nil, by simp, .nil⟩
    | cons v l ih =>
      obtain ⟨t, js, h1, h2, h3, h4⟩ := ih (fun x hx => h x (by simp [hx]))
      obtain ⟨hp, ht⟩ := h v (by simp)
      obtain ⟨j, hj, hd⟩ := Ser.ser_grammar u8 f v hp
      obtain ⟨hf, hr⟩ := Trip.reads cfg f htl hd ht
      refine ⟨Ser.ser u8 f v ++ (c :: w ++ t), j :: js, ?_, ?_, ?_, .cons hr h4⟩
      · rw [writeAll, Ser.stringify, tripable_noMin cfg v ht, h1]; rfl
      · have := Separated.cons ws_nil hj (c := c) (s := w ++ t) (fun x hx => hc x (by simp at hx; simp [hx]))
          (sep_ws h2 w (fun x hx => hc x (by simp [hx])))
        simpa using this
      · intro x hx
        rcases List.mem_cons.1 hx with rfl | hx
        · exact hf
        · exact h3 x hx
  obtain ⟨t, js, h1, h2, h3, h4⟩ := key
  obtain ⟨r, h5, h6⟩ := readN_sep cfg h2 h3
  refine ⟨t, _, r, h1, by rw [h4.length_eq]; exact h5, ?_, h6, readOne_end cfg h6⟩
  rw [List.forall₂_map_right_iff]
  exact h4

/-- C126 violated. A number takes one character more from the stream: `1` written before `[2,3]` is read as 1, and the
next call finds `2,3]`, returns the number 2 without any error and takes the comma as well; the array is lost. With one
parser for both the array is read. -/
theorem C126_violation_number :
    writeAll true (fun _ => []) [] [.num (.uint 1), .arr [.num (.uint 2), .num (.uint 3)]] = .ok (ascii "1[2,3]") ∧
    readN {} 2 (ascii "1[2,3]") = .ok ([.num (.uint 1), .num (.uint 2)], ascii "3]") ∧
    parseN {} 2 (ascii "1[2,3]") = .ok ([.num (.uint 1), .arr [.num (.uint 2), .num (.uint 3)]], []) := by
  decide +kernel

/-- `12 [3] "a"`, three texts meeting the hypotheses of `C126_separated_partial`. -/
example : ∃ l, Separated (ascii "12 [3] \"a\"\n") l ∧ l.length = 3 ∧ ∀ v ∈ l, NumsFit {} v ∧ DupFree {} v ∧ NoInf v := by
  have hn1 : NumTok.WF ⟨false, [0x31, 0x32], none, none⟩ := ⟨by decide, by simp, by simp⟩
  have hn2 : NumTok.WF ⟨false, [0x33], none, none⟩ := ⟨by decide, by simp, by simp⟩
  have ha : JElems False [0x33] [_] := JElems.one (w := []) (w' := []) (by simp [Ws]) (.num hn2) (by simp [Ws])
  have hk : StrBody False [0x61] [0x61] := StrBody.raw (w := 0x61) (t := []) (s := []) (by decide) (by decide) (by decide) (by decide) .nil
  have h3 := Separated.cons (w := []) (by simp [Ws]) (.str hk) (c := 0x0A) (by simp [Ws]) (.nil (w := []) (by simp [Ws]))
  have h2 := Separated.cons (w := []) (by simp [Ws]) (.arr ha) (c := 0x20) (by simp [Ws]) h3
  have h1 := Separated.cons (w := []) (by simp [Ws]) (.num hn1) (c := 0x20) (by simp [Ws]) h2
  refine ⟨_, h1, rfl, ?_⟩
  simp [NumsFit, NumsFitL, DupFree, DupFreeL, NoInf, NoInfL]
  exact ⟨⟨rfl, by simp [ExpFits]⟩, ⟨rfl, by simp [ExpFits]⟩⟩
/-- `[]"a"` followed by other data meets the hypotheses of `C126_adjacent_partial`. -/
example : ∃ l, Adjacent (ascii "12") (ascii "[]\"a\"12") l ∧ l.length = 2 ∧ ∀ v ∈ l, NumsFit {} v ∧ DupFree {} v ∧ NoInf v := by
  have hk : StrBody False [0x61] [0x61] := StrBody.raw (w := 0x61) (t := []) (s := []) (by decide) (by decide) (by decide) (by decide) .nil
  have h2 := Adjacent.cons (rest := ascii "12") (w := []) (by simp [Ws]) (.str hk) (by simp) .nil
  have h1 := Adjacent.cons (w := []) (by simp [Ws]) (.arr0 (w := []) (by simp [Ws])) (by simp) h2
  refine ⟨_, h1, rfl, ?_⟩
  simp [NumsFit, NumsFitL, DupFree, DupFreeL, NoInf, NoInfL]
/-- `1[]` meets the hypotheses of `C126_one_parser_partial`. -/
example : ∃ l, Delimited [] (ascii "1[]") l ∧ l.length = 2 := by
  have hn1 : NumTok.WF ⟨false, [0x31], none, none⟩ := ⟨by decide, by simp, by simp⟩
  have h2 := Delimited.cons (rest := []) (w := []) (by simp [Ws]) (.arr0 (w := []) (by simp [Ws])) (by simp) .nil
  have h1 := Delimited.cons (w := []) (by simp [Ws]) (.num hn1) (fun _ c r e => by
    simp only [List.nil_append, List.append_nil, List.cons_append, List.cons.injEq] at e
    obtain ⟨rfl, -⟩ := e; decide) h2
  exact ⟨_, h1, rfl⟩
/-- Values meeting the hypotheses of `C126_written_partial`. -/
example (f : Decimal → Bytes) : ∀ v ∈ [JV.num (.uint 5), .arr [.num (.int (-3)), .null]], Printable true f v ∧ Tripable {} v := by
  simp [Printable, PrintableL, Tripable, TripableL]

end Imt.Props
