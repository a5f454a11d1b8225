import Verif.Props.Source
import Verif.Props.BinJson
/-! # Values read from text, written as binary and read again: C179 -/
namespace Imt.Props
open Imt BinJson Spec

/-- The class of a number as binary JSON sees it, `bits` – the double the parser made of a decimal number. Numbers kept
as text go by their class and carry the 64-bit flag (stringValue.cpp:160-174). -/
def numShape (bits : Decimal → Nat) (pbits : Bytes → Nat) : JNum → Shape
  | .uint n => .uint false n
  | .int i => .int false i
  | .dbl d => ofDouble (bits d)
  | .inf neg => .dbl (if neg then 0xFFF0000000000000 else 0x7FF0000000000000)
  | .prec t .dbl => .dbl (pbits t)
  | .prec _ (.sint i) => .int true i
  | .prec _ (.unat n) => .uint true n

mutual
/-- A value of the text parser as binary JSON sees it, bound to a key (empty when none). -/
def asBin (bits : Decimal → Nat) (pbits : Bytes → Nat) (key : Bytes) : JV → BV
  | .undef => .node key .undef []
  | .null => .node key .null []
  | .bool b => .node key (.bool b) []
  | .num n => .node key (numShape bits pbits n) []
  | .str s => .node key (.str s) []
  | .arr l => .node key .arr (asBinL bits pbits l)
  | .obj l => .node key (.obj false) (asBinM bits pbits l)
/-- Items. -/
def asBinL (bits : Decimal → Nat) (pbits : Bytes → Nat) : List JV → List BV
  | [] => []
  | v :: l => asBin bits pbits [] v :: asBinL bits pbits l
/-- Members. -/
def asBinM (bits : Decimal → Nat) (pbits : Bytes → Nat) : List (Bytes × JV) → List BV
  | [] => []
  | (k, v) :: l => asBin bits pbits k v :: asBinM bits pbits l
end

theorem utf8_first (w : Nat) (h : w < 0x110000) :
    ∃ c t, utf8 w = c :: t ∧ ¬ (128 ≤ c ∧ c < 192) ∧ ∀ b ∈ utf8 w, b < 256 := by
  unfold utf8
  split
  · exact ⟨_, _, rfl, by omega, by simp; omega⟩
  · split
    · exact ⟨_, _, rfl, by omega, by simp; omega⟩
    · split
      · exact ⟨_, _, rfl, by omega, by simp; omega⟩
      · exact ⟨_, _, rfl, by omega, by simp; omega⟩

/-- Code points written one after another do not start in the middle of one. -/
theorem wide_start {u8 : Bool} {s : Bytes} (h : WideStr u8 s) : Bytes.Valid s ∧ StartOk s := by
  obtain ⟨ws, h1, rfl⟩ := h
  have hv : Bytes.Valid (Utf8.encode ws) := by
    induction ws with
    | nil => intro b hb; cases hb
    | cons w ws ih =>
      rw [Utf8.encode_cons, ← Parser.utf8_eq w (h1 w (by simp)).1]
      obtain ⟨_, _, _, _, hb⟩ := utf8_first w (h1 w (by simp)).1
      intro b hm
      rcases List.mem_append.1 hm with hm | hm
      · exact hb b hm
      · exact ih (fun x hx => h1 x (by simp [hx])) b hm
  refine ⟨hv, ?_⟩
  cases ws with
  | nil => intro c hc; cases hc
  | cons w ws =>
    rw [Utf8.encode_cons, ← Parser.utf8_eq w (h1 w (by simp)).1]
    obtain ⟨c, t, e, hc, _⟩ := utf8_first w (h1 w (by simp)).1
    rw [e]
    intro b hb
    simp only [List.cons_append, List.head?_cons, Option.mem_def, Option.some.injEq] at hb
    rw [← hb]; exact hc

/-- A text read that memory can hold. -/
def HeldStr (s : Bytes) : Prop := WideStr true s ∧ s.length < 2 ^ 60

theorem held_text {fl : Flags} (hc : fl.compat32 = false) {s : Bytes} (h : HeldStr s) : TextOk fl s :=
  ⟨(wide_start h.1).1, (wide_start h.1).2, h.2, fun e => by rw [hc] at e; cases e⟩

theorem asBinL_length (bits : Decimal → Nat) (pbits : Bytes → Nat) (l : List JV) : (asBinL bits pbits l).length = l.length := by
  induction l with
  | nil => rfl
  | cons v l ih => rw [asBinL, List.length_cons, List.length_cons, ih]

theorem nodes_pos (v : BV) : 0 < nodes v := by obtain ⟨k, sh, l⟩ := v; rw [nodes]; omega

theorem length_nodesL (l : List BV) : l.length ≤ nodesL l := by
  induction l with
  | nil => exact Nat.le_refl _
  | cons v l ih => rw [List.length_cons, nodesL]; have := nodes_pos v; omega

theorem rawAcc_lt : ∀ (b : Bytes) (a n : Nat), a < 2 ^ 64 → Parser.rawAcc a b = some n → n < 2 ^ 64
  | [], a, n, ha, h => by rw [Parser.rawAcc] at h; cases h; exact ha
  | c :: b, a, n, ha, h => by
    rw [Parser.rawAcc] at h
    dsimp only at h
    split at h
    · split at h
      · cases h
      · exact rawAcc_lt b _ n (Nat.mod_lt _ (by decide)) h
    · cases h

/-- Integers kept as text are those of 64 bits, without the least. -/
theorem raw_class {t : Bytes} {fd : Bool} {c : PCls} (h : Parser.numberFromStringRaw t fd = .prec t c) :
    c = .dbl ∨ (∃ i, c = .sint i ∧ -2 ^ 63 < i ∧ i ≤ 0) ∨ ∃ n, c = .unat n ∧ n < 2 ^ 64 := by
  unfold Parser.numberFromStringRaw at h
  split at h
  · cases h; exact Or.inl rfl
  · dsimp only at h
    split at h
    · cases h; exact Or.inl rfl
    · rename_i acc ha
      have hl := rawAcc_lt _ _ _ (by decide) ha
      split at h
      · split at h
        · cases h; exact Or.inl rfl
        · cases h; exact Or.inr (Or.inl ⟨_, rfl, by omega, by omega⟩)
      · cases h; exact Or.inr (Or.inr ⟨_, rfl, hl⟩)

theorem num_good {fl : Flags} (hc : fl.compat32 = false) (bits : Decimal → Nat) (pbits : Bytes → Nat) (hb : ∀ d, bits d < 2 ^ 64)
    (hb' : ∀ t, pbits t < 2 ^ 64) (p : Bool) (key : Bytes) (hk : TextOk fl key) (n : JNum) (h : FromText p (.num n)) :
    Good fl (.node key (numShape bits pbits n) []) ∧ (p = false → Canonical (.node key (numShape bits pbits n) [])) := by
  have hc' : ∀ {p : Prop}, fl.compat32 = true → p := fun e => by rw [hc] at e; cases e
  match n with
  | .uint n =>
    rw [FromText] at h
    exact ⟨⟨hk, ⟨rfl, h.2, fun e => hc' e⟩, trivial⟩, fun _ => by simp [numShape, Canonical, CanonicalL]⟩
  | .int i =>
    rw [FromText] at h
    refine ⟨⟨hk, ⟨rfl, h.2.1, by omega, fun e => hc' e⟩, trivial⟩, fun _ => ?_⟩
    simpa [numShape, Canonical, CanonicalL] using h.2.2
  | .dbl d =>
    simp only [numShape, ofDouble]
    split
    · exact ⟨⟨hk, ⟨rfl, by decide, fun e => hc' e⟩, trivial⟩, fun _ => by simp [Canonical, CanonicalL]⟩
    · rename_i hz
      rw [not_or] at hz
      exact ⟨⟨hk, ⟨rfl, hb d⟩, trivial⟩, fun _ => by simpa [Canonical, CanonicalL] using hz⟩
  | .inf neg =>
    cases neg
    · exact ⟨⟨hk, ⟨rfl, by decide⟩, trivial⟩, fun _ => by simp [numShape, Canonical, CanonicalL]⟩
    · exact ⟨⟨hk, ⟨rfl, by decide⟩, trivial⟩, fun _ => by simp [numShape, Canonical, CanonicalL]⟩
  | .prec t c =>
    rw [FromText] at h
    obtain ⟨hp, _, _, _, _, hr⟩ := h
    refine ⟨?_, fun e => by rw [hp] at e; cases e⟩
    rcases raw_class hr with rfl | ⟨i, rfl, h1, h2⟩ | ⟨n, rfl, hn⟩
    · exact ⟨hk, ⟨rfl, hb' t⟩, trivial⟩
    · exact ⟨hk, ⟨rfl, h1, by omega, fun _ e => by cases e⟩, trivial⟩
    · exact ⟨hk, ⟨rfl, hn, fun _ e => by cases e⟩, trivial⟩

theorem cont_fits {fl : Flags} (hc : fl.compat32 = false) {l : List BV} (h : nodesL l < 2 ^ 60) : Fits fl l.length :=
  ⟨by have := length_nodesL l; omega, fun e => by rw [hc] at e; cases e⟩

mutual
/-- What the text parser makes can be written as binary. -/
theorem asBin_good {fl : Flags} (hc : fl.compat32 = false) (bits : Decimal → Nat) (pbits : Bytes → Nat) (hb : ∀ d, bits d < 2 ^ 64)
    (hb' : ∀ t, pbits t < 2 ^ 64) (p : Bool) (key : Bytes) (hk : TextOk fl key) (v : JV) (h : FromText p v) (hs : AllStr HeldStr v) (hn : nodes (asBin bits pbits key v) < 2 ^ 60) :
    Good fl (asBin bits pbits key v) ∧ (p = false → Canonical (asBin bits pbits key v)) := by
  match v with
  | .undef => rw [FromText] at h; exact h.elim
  | .null => rw [asBin]; exact ⟨⟨hk, rfl, trivial⟩, fun _ => by simp [Canonical, CanonicalL]⟩
  | .bool b => rw [asBin]; exact ⟨⟨hk, rfl, trivial⟩, fun _ => by simp [Canonical, CanonicalL]⟩
  | .num n => rw [asBin]; exact num_good hc bits pbits hb hb' p key hk n h
  | .str s =>
    rw [AllStr] at hs
    rw [asBin]
    exact ⟨⟨hk, ⟨rfl, held_text hc hs⟩, trivial⟩, fun _ => by simp [Canonical, CanonicalL]⟩
  | .arr l =>
    rw [FromText] at h
    rw [AllStr] at hs
    rw [asBin, nodes] at hn
    rw [asBin]
    obtain ⟨a, b⟩ := asBinL_good hc bits pbits hb hb' p l h hs (by omega)
    exact ⟨⟨hk, cont_fits hc (by omega), a⟩, fun e => ⟨by simp, by simp, by simp, by simp, b e⟩⟩
  | .obj l =>
    rw [FromText] at h
    rw [AllStr] at hs
    rw [asBin, nodes] at hn
    rw [asBin]
    obtain ⟨a, b⟩ := asBinM_good hc bits pbits hb hb' p l h.2 hs (by omega)
    exact ⟨⟨hk, ⟨cont_fits hc (by omega), rfl⟩, a⟩, fun e => ⟨by simp, by simp, by simp, by simp, b e⟩⟩
theorem asBinL_good {fl : Flags} (hc : fl.compat32 = false) (bits : Decimal → Nat) (pbits : Bytes → Nat) (hb : ∀ d, bits d < 2 ^ 64)
    (hb' : ∀ t, pbits t < 2 ^ 64) (p : Bool) (l : List JV) (h : FromTextL p l) (hs : AllStrL HeldStr l) (hn : nodesL (asBinL bits pbits l) < 2 ^ 60) :
    GoodL fl (asBinL bits pbits l) ∧ (p = false → CanonicalL (asBinL bits pbits l)) := by
  match l with
  | [] => exact ⟨trivial, fun _ => trivial⟩
  | v :: l =>
    rw [FromTextL] at h
    rw [AllStrL] at hs
    rw [asBinL, nodesL] at hn
    rw [asBinL]
    have nil : TextOk fl [] := ⟨(by intro b hb; cases hb), (by intro b hb; cases hb), by decide, fun _ => by decide⟩
    obtain ⟨a1, a2⟩ := asBin_good hc bits pbits hb hb' p [] nil v h.1 hs.1 (by omega)
    obtain ⟨b1, b2⟩ := asBinL_good hc bits pbits hb hb' p l h.2 hs.2 (by omega)
    exact ⟨⟨a1, b1⟩, fun e => ⟨a2 e, b2 e⟩⟩
theorem asBinM_good {fl : Flags} (hc : fl.compat32 = false) (bits : Decimal → Nat) (pbits : Bytes → Nat) (hb : ∀ d, bits d < 2 ^ 64)
    (hb' : ∀ t, pbits t < 2 ^ 64) (p : Bool) (l : List (Bytes × JV)) (h : FromTextM p l) (hs : AllStrM HeldStr l) (hn : nodesL (asBinM bits pbits l) < 2 ^ 60) :
    GoodL fl (asBinM bits pbits l) ∧ (p = false → CanonicalL (asBinM bits pbits l)) := by
  match l with
  | [] => exact ⟨trivial, fun _ => trivial⟩
  | (k, v) :: l =>
    rw [FromTextM] at h
    rw [AllStrM] at hs
    rw [asBinM, nodesL] at hn
    rw [asBinM]
    obtain ⟨a1, a2⟩ := asBin_good hc bits pbits hb hb' p k (held_text hc hs.1) v h.1 hs.2.1 (by omega)
    obtain ⟨b1, b2⟩ := asBinM_good hc bits pbits hb hb' p l h.2 hs.2.2 (by omega)
    exact ⟨⟨a1, b1⟩, fun e => ⟨a2 e, b2 e⟩⟩
end

mutual
theorem allStr_and {P Q : Bytes → Prop} (v : JV) (h : AllStr P v) (h' : AllStr Q v) : AllStr (fun s => P s ∧ Q s) v := by
  match v with
  | .undef | .null | .bool _ | .num _ => simp [AllStr]
  | .str s => rw [AllStr] at *; exact ⟨h, h'⟩
  | .arr l => rw [AllStr] at *; exact allStrL_and l h h'
  | .obj l => rw [AllStr] at *; exact allStrM_and l h h'
theorem allStrL_and {P Q : Bytes → Prop} (l : List JV) (h : AllStrL P l) (h' : AllStrL Q l) : AllStrL (fun s => P s ∧ Q s) l := by
  match l with
  | [] => simp [AllStrL]
  | v :: l => rw [AllStrL] at *; exact ⟨allStr_and v h.1 h'.1, allStrL_and l h.2 h'.2⟩
theorem allStrM_and {P Q : Bytes → Prop} (l : List (Bytes × JV)) (h : AllStrM P l) (h' : AllStrM Q l) :
    AllStrM (fun s => P s ∧ Q s) l := by
  match l with
  | [] => simp [AllStrM]
  | (k, v) :: l => rw [AllStrM] at *; exact ⟨⟨h.1, h'.1⟩, allStr_and v h.2.1 h'.2.1, allStrM_and l h.2.2 h'.2.2⟩
end

theorem text_good (cfg : Parser.Cfg) (s : Bytes) (hs : WellFormedUtf8 s) (hu : UniAscii s ∨ s.length < 2 ^ 32) (v : JV) (r : Bytes)
    (h : Parser.parse cfg s = .ok (v, r)) (hsz : AllStr (fun b => b.length < 2 ^ 60) v) (bits : Decimal → Nat) (pbits : Bytes → Nat)
    (hb : ∀ d, bits d < 2 ^ 64) (hb' : ∀ t, pbits t < 2 ^ 64) (hn : nodes (asBin bits pbits [] v) + 256 < 2 ^ 32) (fl : Flags)
    (hc : fl.compat32 = false) :
    Good fl (asBin bits pbits [] v) ∧ (cfg.precise = false → Canonical (asBin bits pbits [] v)) := by
  have hm := (parse_made cfg _).1 _ _ _ h
  have hw := ((parse_wide cfg true _).1 _ _ _ h ⟨strOk_wide ⟨hs, by simp⟩, hu⟩).1
  have nil : TextOk fl [] := ⟨(by intro b hb; cases hb), (by intro b hb; cases hb), by decide, fun _ => by decide⟩
  exact asBin_good hc bits pbits hb hb' cfg.precise [] nil v hm (allStr_and v hw hsz) (by omega)

/-- **C179.** Whatever well-formed UTF-8 text a value was read from, JSON or not, it can be written as binary JSON, with
or without compressed keys and texts, and reading that, whatever follows it, gives the very same value, doubles bit for
bit whatever the parser made of the decimals. Nothing is asked of the value but that it fits: texts below 2^60 bytes,
fewer than 2^32-256 nodes. -/
theorem C179_text_binary (cfg : Parser.Cfg) (hp : cfg.precise = false) (s : Bytes) (hs : WellFormedUtf8 s)
    (hu : UniAscii s ∨ s.length < 2 ^ 32) (v : JV) (r : Bytes) (h : Parser.parse cfg s = .ok (v, r))
    (hsz : AllStr (fun b => b.length < 2 ^ 60) v) (bits : Decimal → Nat) (pbits : Bytes → Nat) (hb : ∀ d, bits d < 2 ^ 64)
    (hb' : ∀ t, pbits t < 2 ^ 64) (hn : nodes (asBin bits pbits [] v) + 256 < 2 ^ 32) (fl : Flags) (hc : fl.compat32 = false)
    (env : Env) (hr : Roomy env) :
    ∃ b, serializeBinary fl env (asBin bits pbits [] v) = .ok b ∧ ∃ F, ∀ f ≥ F, ∀ rest, ∃ hist ki,
      parseBinary env f (b ++ rest) = .ok (asBin bits pbits [] v, ⟨rest, hist, ki⟩) := by
  obtain ⟨h1, h2⟩ := text_good cfg s hs hu v r h hsz bits pbits hb hb' hn fl hc
  exact C18_exact_partial fl env hr _ h1 (h2 hp) hn

/-- C179 with numbers kept as text: they are read as the numbers of their class, the text is lost, and so is the
sign of a zero (`C18_violation_zero`); the rest is the same. -/
theorem C179_precise (cfg : Parser.Cfg) (s : Bytes) (hs : WellFormedUtf8 s)
    (hu : UniAscii s ∨ s.length < 2 ^ 32) (v : JV) (r : Bytes) (h : Parser.parse cfg s = .ok (v, r))
    (hsz : AllStr (fun b => b.length < 2 ^ 60) v) (bits : Decimal → Nat) (pbits : Bytes → Nat) (hb : ∀ d, bits d < 2 ^ 64)
    (hb' : ∀ t, pbits t < 2 ^ 64) (hn : nodes (asBin bits pbits [] v) + 256 < 2 ^ 32) (fl : Flags) (hc : fl.compat32 = false)
    (env : Env) (hr : Roomy env) :
    ∃ b, serializeBinary fl env (asBin bits pbits [] v) = .ok b ∧ ∃ F, ∀ f ≥ F, ∀ rest, ∃ hist ki,
      parseBinary env f (b ++ rest) = .ok (norm (asBin bits pbits [] v), ⟨rest, hist, ki⟩) :=
  C18_round_trip_partial fl env hr _ (text_good cfg s hs hu v r h hsz bits pbits hb hb' hn fl hc).1 hn

/-- Escapes that are no UTF-8 (half of a surrogate pair), a key written with an escape, a fraction. -/
def mixedText : Bytes := ascii "{\"\\u0062\":\"\\ud83d\", \"a\":[-5, 1.5]} x"

example : ∃ v, Parser.parse {} mixedText = .ok (v, ascii " x") ∧
    asBin (fun _ => 0x3FF8000000000000) (fun _ => 0) [] v =
      .node [] (.obj false) [.node (ascii "a") .arr [.node [] (.int false (-5)) [], .node [] (.dbl 0x3FF8000000000000) []],
        .node (ascii "b") (.str [0xED, 0xA0, 0xBD]) []] ∧
    AllStr (fun b => b.length < 2 ^ 60) v ∧ WellFormedUtf8 mixedText ∧ UniAscii mixedText ∧
    nodes (asBin (fun _ => 0x3FF8000000000000) (fun _ => 0) [] v) + 256 < 2 ^ 32 :=
  ⟨.obj [(ascii "a", .arr [.num (.int (-5)), .num (.dbl ⟨false, 1, 5, 1, 0⟩)]), (ascii "b", .str [0xED, 0xA0, 0xBD])],
    by decide +kernel, by rfl, by simp [AllStr, AllStrL, AllStrM, ascii], (strOk_low true (by decide)).1,
    uniAscii_of (by decide), by decide +kernel⟩

/-- Numbers kept as text: zeros written in other ways come back as the integer zero, `-7` as an ordinary integer. -/
example : ∃ v, Parser.parse { precise := true } (ascii "[-0,0.0,-7]") = .ok (v, []) ∧
    norm (asBin (fun _ => 0) (fun _ => 0) [] v) =
      .node [] .arr [.node [] (.uint false 0) [], .node [] (.uint false 0) [], .node [] (.int false (-7)) []] :=
  ⟨.arr [.num (.prec (ascii "-0") (.sint 0)), .num (.prec (ascii "0.0") .dbl), .num (.prec (ascii "-7") (.sint (-7)))],
    by decide +kernel, by rfl⟩

end Imt.Props
