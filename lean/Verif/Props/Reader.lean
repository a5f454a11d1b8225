import Verif.Props.Stream
import Verif.Lemmas.Reader
/-! # The parser over its reader: C127 -/
namespace Imt.Props
open Imt Parser Spec Ser Imt.Reader

/-- Enlarging the digits of a number does not make it finite: the test `isinf` of parseLargeUnsigned is monotone. -/
def Mono (tooLong : Nat → Bool) : Prop := ∀ a b, a ≤ b → tooLong a = true → tooLong b = true

theorem parseR_sim (cfg : Cfg) (hm : Mono cfg.tooLong) (r : Rd) (s : Bytes) (h : Any cfg r s) :
    Sim (After cfg s) (parseR cfg r) (Parser.parse cfg s) := by
  have := (parseV_spec cfg hm (2 * s.length + 1)).1 (2 * r.src.length + 5) r s h (by have := h.len; omega)
  exact this

theorem start_any (cfg : Cfg) {s : Bytes} (hv : Bytes.Valid s) : Any cfg { src := s } s := Or.inl ⟨rfl, hv, rfl, rfl⟩

/-- C127. The parser over its reader accepts the same texts as the parser on the list of characters, with the same value;
the source keeps the rest, but for one character behind a number; and it is asked behind its end only for a number that ends
there, and once. -/
theorem C127_refines (cfg : Cfg) (hm : Mono cfg.tooLong) (s : Bytes) (hv : Bytes.Valid s) :
    (Parser.parse cfg s = .err ∧ Reader.parse cfg s = .err) ∨
    ∃ v rest, Parser.parse cfg s = .ok (v, rest) ∧
      Reader.parse cfg s = .ok (v, if Stream.ahead s = true then rest.drop 1 else rest,
        if Stream.ahead s = true ∧ rest = [] then 1 else 0) := by
  have hs := parseR_sim cfg hm _ s (start_any cfg hv)
  rcases C06_total cfg s with h | ⟨v, p, rest, -, -, h⟩
  · left
    rw [h] at hs
    refine ⟨h, ?_⟩
    have hs : parseR cfg { src := s } = .err := hs
    rw [Reader.parse, hs]; rfl
  · right
    rw [h] at hs
    obtain ⟨r, e1, e2⟩ := hs
    refine ⟨v, rest, h, ?_⟩
    rw [Reader.parse, e1]
    unfold After at e2
    split at e2
    · rename_i ha
      rw [if_pos ha]
      obtain ⟨-, -, ⟨h1, h2, -, h3⟩ | ⟨b, h1, -, h3⟩⟩ := e2
      · dsimp only at h1 h2 h3; rw [h1, if_pos ⟨ha, rfl⟩]; simp [h2, h3]
      · dsimp only at h1 h3; rw [h1, if_neg (by simp)]; simp [h3]
    · rename_i ha
      rw [if_neg ha, if_neg (fun h => ha h.1)]
      obtain ⟨-, -, h1, h3⟩ := e2
      dsimp only at h1 h3
      simp [h1, h3]

/-- C127 against C126: what `Value::fromStream` leaves in the stream is what the reader has not fetched. -/
theorem C127_stream (cfg : Cfg) (hm : Mono cfg.tooLong) (s : Bytes) (hv : Bytes.Valid s) :
    Stream.readOne cfg s = (do let x ← Reader.parse cfg s; pure (x.1, x.2.1)) := by
  unfold Stream.readOne
  rcases C127_refines cfg hm s hv with ⟨h1, h2⟩ | ⟨v, rest, h1, h2⟩
  · rw [h1, h2]; rfl
  · rw [h1, h2]; rfl

/-- C127: a text that is no number is taken from the source exactly, and the source is not asked for anything behind it (so a
source that blocks does not block), whatever comes next. -/
theorem C127_own (cfg : Cfg) (hm : Mono cfg.tooLong) (w t rest : Bytes) (v : SJ) (hw : Ws w) (h : JVal False t v)
    (hn : ∀ n, v ≠ .num n) (hf : NumsFit cfg v ∧ DupFree cfg v ∧ NoInf v) (hv : Bytes.Valid (w ++ (t ++ rest))) :
    ∃ x, Means cfg v x ∧ Reader.parse cfg (w ++ (t ++ rest)) = .ok (x, rest, 0) := by
  have hp := parse_grammar_own cfg h ⟨hf.1, hf.2.1⟩ hn w rest hw
  have ha : Stream.ahead (w ++ (t ++ rest)) = false := by rw [ahead_ws _ _ hw, ahead_own h hn]
  refine ⟨interpV cfg v, interpV_means cfg v hf.2.2, ?_⟩
  rcases C127_refines cfg hm _ hv with ⟨h1, -⟩ | ⟨v', rest', h1, h2⟩
  · rw [hp] at h1; cases h1
  · rw [hp] at h1
    injection h1 with h1
    injection h1 with h4 h5
    rw [h2, ha, ← h4, ← h5]
    simp

/-- C127: one parser used for several values over its reader gives what `C126_one_parser_partial` is about, because the
character fetched behind a number stays in the reader. -/
theorem C127_one_parser (cfg : Cfg) (hm : Mono cfg.tooLong) (n : Nat) (s : Bytes) (hv : Bytes.Valid s) :
    (Stream.parseN cfg n s = .err ∧ Reader.parseN cfg n { src := s } = .err) ∨
    ∃ vs rest r, Stream.parseN cfg n s = .ok (vs, rest) ∧ Reader.parseN cfg n { src := s } = .ok (vs, r) ∧ Any cfg r rest := by
  suffices key : ∀ n r s, Any cfg r s → (Stream.parseN cfg n s = .err ∧ Reader.parseN cfg n r = .err) ∨
      ∃ vs rest r', Stream.parseN cfg n s = .ok (vs, rest) ∧ Reader.parseN cfg n r = .ok (vs, r') ∧ Any cfg r' rest from
    key n _ s (start_any cfg hv)
  intro n
  induction n with
  | zero => intro r s h; exact Or.inr ⟨[], s, r, rfl, rfl, h⟩
  | succ n ih =>
    intro r s h
    have hs := parseR_sim cfg hm r s h
    rw [Stream.parseN, Reader.parseN]
    rcases C06_total cfg s with h1 | ⟨v, p, rest, -, -, h1⟩
    · rw [h1] at hs
      have hs : parseR cfg r = .err := hs
      left; rw [h1, hs]; exact ⟨rfl, rfl⟩
    · rw [h1] at hs
      obtain ⟨r1, e1, e2⟩ := hs
      rw [h1, e1]
      simp only [Res.bind_ok]
      rcases ih r1 rest e2.any with ⟨h2, h3⟩ | ⟨vs, rest2, r2, h2, h3, h4⟩
      · left; rw [h2, h3]; exact ⟨rfl, rfl⟩
      · right; rw [h2, h3]; exact ⟨v :: vs, rest2, r2, rfl, rfl, h4⟩

/-- The default test is monotone, and `[1,"a"]` with binary data behind it is taken exactly. -/
example : Mono ({} : Cfg).tooLong ∧ Bytes.Valid (ascii " [1,\"a\"]" ++ [0, 255]) ∧
    Reader.parse {} (ascii " [1,\"a\"]" ++ [0, 255]) = .ok (.arr [.num (.uint 1), .str [0x61]], [0, 255], 0) := by
  refine ⟨?_, by decide, by decide +kernel⟩
  intro a b h1 h2
  exact absurd h2 (by simp)

/-- One character behind a number is fetched; at the end of the source the end is fetched. -/
example : Reader.parse {} (ascii "12,3") = .ok (.num (.uint 12), ascii "3", 0) ∧
    Reader.parse {} (ascii "12") = .ok (.num (.uint 12), [], 1) ∧
    Reader.parse { precise := true } (ascii "-1.5e3,3") =
      .ok (.num (.prec (ascii "-1.5e3") .dbl), ascii "3", 0) := by decide +kernel

/-- Two values read by one parser over one reader. -/
example : (match Reader.parseN {} 2 { src := ascii "1[2,3]" } with | .ok x => (x.1, x.2.src) | _ => ([], [])) =
    ([.num (.uint 1), .arr [.num (.uint 2), .num (.uint 3)]], []) := by decide +kernel

end Imt.Props
