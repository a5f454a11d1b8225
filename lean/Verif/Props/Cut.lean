import Verif.Lemmas.ParserExt
import Verif.Lemmas.BinExt
import Verif.Props.Parser
import Verif.Props.BinJson
/-!
# C170: a document cut short is not taken for a whole one

The sources of the library report a failed read like the end of the data (`istream::get` and `fgetc`,
value.cpp:96-108), so the parsers are all that notices a document of which only the first part arrived.
-/
namespace Imt.Props
open Imt Imt.Parser Imt.Spec

/-- The text starts, after white space, with a character of a number. -/
def BeginsNumber (t : Bytes) : Prop :=
  ∃ w c r, t = w ++ c :: r ∧ (∀ x ∈ w, isSpace x = true) ∧ isSpace c = false ∧ c ∈ ascii "0123456789+-."

theorem begins_of_starts {p : Bytes} (h : startsNum p) (q : Bytes) : BeginsNumber (p ++ q) := by
  obtain ⟨c, r, he, hc⟩ := h
  refine ⟨p.takeWhile isSpace, c, r ++ q, ?_, ?_, ?_, ?_⟩
  · have := List.takeWhile_append_dropWhile (p := isSpace) (l := p)
    unfold skipWs at he
    rw [he] at this
    rw [← List.cons_append, ← List.append_assoc, this]
  · intro x hx
    exact (List.mem_takeWhile_imp hx)
  · unfold skipWs at he
    cases hs : isSpace c with
    | false => rfl
    | true =>
      have hd := List.head?_dropWhile_not isSpace p
      rw [he] at hd
      simp [hs] at hd
  · have h1 : c < 58 := by
      unfold isDigit at hc
      rcases hc with h | h | h | h
      · simp at h; omega
      · omega
      · omega
      · omega
    have : ∀ c < 58, (isDigit c = true ∨ c = 0x2B ∨ c = 0x2D ∨ c = 0x2E) → c ∈ ascii "0123456789+-." := by decide +kernel
    exact this c h1 hc

theorem head_of_begins {t : Bytes} (h : BeginsNumber t) : ∃ c r, skipWs t = c :: r ∧ c ∈ ascii "0123456789+-." := by
  obtain ⟨w, c, r, rfl, hw, hs, hc⟩ := h
  refine ⟨c, r, ?_, hc⟩
  unfold skipWs
  rw [List.dropWhile_append_of_pos hw, List.dropWhile_cons, if_neg (by simp [hs])]

/-- What follows a value does not change it: after a successful parse of `s` any text `q` may be appended, unless the
value is a number that ended only with the text. -/
theorem C170_follow (cfg : Cfg) (s q : Bytes) (v : JV) (r : Bytes) (h : parse cfg s = .ok (v, r))
    (hr : r ≠ [] ∨ ¬ BeginsNumber s) : parse cfg (s ++ q) = .ok (v, r ++ q) := by
  have hn : r ≠ [] ∨ ¬ startsNum s := hr.imp id fun h1 h2 => h1 (by simpa using begins_of_starts h2 [])
  exact parse_of_fuel cfg _ _ _ ((parse_ext cfg q _).1 s (v, r) h hn) (by simp)

/-- C170 for texts whose value is no number: when the parser reads a value from `p ++ q` up to a place within `q`, then
`p` alone is rejected. -/
theorem C170_text (cfg : Cfg) (p q : Bytes) (v : JV) (r : Bytes) (h : parse cfg (p ++ q) = .ok (v, r))
    (hn : ¬ BeginsNumber (p ++ q)) (hr : r.length < q.length) : parse cfg p = .err := by
  rcases C06_total cfg p with he | ⟨v', p', r', -, -, he⟩
  · exact he
  · exfalso
    have hs : ¬ startsNum p := fun e => hn (begins_of_starts e q)
    have := parse_of_fuel cfg _ _ _ ((parse_ext cfg q _).1 p (v', r') he (.inr hs)) (by simp)
    rw [h] at this
    cases this
    rw [List.length_append] at hr
    omega

example : parse {} (ascii " {\"a\":[1,tru" ++ ascii "e]} ") = .ok (.obj [(ascii "a", .arr [.num (.uint 1), .bool true])], ascii " ") ∧
    ¬ BeginsNumber (ascii " {\"a\":[1,tru" ++ ascii "e]} ") ∧ (ascii " ").length < (ascii "e]} ").length := by
  refine ⟨by decide +kernel, ?_, by decide⟩
  intro h
  obtain ⟨c, r, he, hc⟩ := head_of_begins h
  have h2 : (skipWs (ascii " {\"a\":[1,tru" ++ ascii "e]} ")).head? = some 0x7B := by decide +kernel
  rw [he] at h2
  cases h2
  exact absurd hc (by decide +kernel)

/-- C170 fails for numbers: of any integer with more than one digit every first part is accepted, as another number. -/
theorem C170_violation_number (cfg : Cfg) (hp : cfg.precise = false) (hl : ∀ n < 2 ^ 64, cfg.tooLong n = false) (a b : Bytes)
    (ha : Digits1 a) (hb : Digits1 b) (hv : decVal (a ++ b) < 2 ^ 64) (hva : decVal a < 2 ^ 64) :
    parse cfg (a ++ b) = .ok (.num (.uint (decVal (a ++ b))), []) ∧ parse cfg a = .ok (.num (.uint (decVal a)), []) := by
  have hab : Digits1 (a ++ b) := ⟨by simp [ha.1], by
    intro c hc; rcases List.mem_append.mp hc with h | h
    · exact ha.2 c h
    · exact hb.2 c h⟩
  constructor
  · have := C07_unsigned cfg hp [] (a ++ b) [] (.inl rfl) hab (hl _ hv) (by simp [StopNum]) hv
    simpa using this
  · have := C07_unsigned cfg hp [] a [] (.inl rfl) ha (hl _ hva) (by simp [StopNum]) hva
    simpa using this

example : parse {} (ascii "1500") = .ok (.num (.uint 1500), []) ∧ parse {} (ascii "15") = .ok (.num (.uint 15), []) := by
  decide +kernel

open Imt.BinJson in
/-- C170 for binary documents from a source that throws at its end: when the parser reads a value from `p ++ q` up to a place
within `q`, then `p` alone ends with an exception. -/
theorem C170_binary (env : Env) (he : env.eofThrows = true) (f : Nat) (p q : Bytes) (v : BV) (ps : PS)
    (h : parseBinary env f (p ++ q) = .ok (v, ps)) (hr : ps.s.length < q.length) : parseBinary env f p = .err := by
  rcases (blind_parse (q := q) he f).1 ⟨p, [], 0⟩ with e | e
  · exact e
  · exfalso
    unfold parseBinary at h
    have e' : parseItem env f ⟨p ++ q, [], 0⟩ = extR q (parseItem env f ⟨p, [], 0⟩) := e
    rw [e'] at h
    cases hx : parseItem env f ⟨p, [], 0⟩ with
    | ok t =>
      rw [hx] at h
      cases h
      simp [PS.ext] at hr
      omega
    | _ => rw [hx] at h; cases h

open Imt.BinJson in
example : ∃ v ps, parseBinary env0 10 ([0x62, 0x21, 0x43, 0x61] ++ [0x62, 0x63]) = .ok (v, ps) ∧ ps.s.length < [0x62, 0x63].length ∧
    env0.eofThrows = true := ⟨.node [] .arr [.node [] (.uint false 1) [], .node [] (.str [0x61, 0x62, 0x63]) []], ⟨[], [], 0⟩,
    rfl, by decide, rfl⟩

open Imt.BinJson in
/-- C170 fails for binary documents from a source that returns -1 at its end, like those of
streams.h:26-73: the missing bytes are taken for 0xFF. The number 1500 cut in the middle is read as 65500. -/
theorem C170_violation_binary (env : Env) (he : env.eofThrows = false) (f : Nat) :
    parseBinary env (f + 1) [0x2B, 0xDC, 0x05] = .ok (.node [] (.uint false 1500) [], ⟨[], [], 0⟩) ∧
    parseBinary env (f + 1) [0x2B, 0xDC] = .ok (.node [] (.uint false 65500) [], ⟨[], [], 0⟩) := by
  constructor
  · simp [parseBinary, parseItem, parseInteger, readN, next, ofLe]
  · simp [parseBinary, parseItem, parseInteger, readN, next, ofLe, he]

end Imt.Props
