import Verif.Model.ParserMem
import Verif.Lemmas.Parser
import Verif.Lemmas.ParserGram
/-!
# C137, C138: scratch memory of the parser, position in its errors
-/
namespace Imt.Props
open Imt Imt.Parser Imt.ParserMem

/-! ### Where the text is wrong, from the parser without scratch memory -/

mutual
/-- The way from the root to the place where reading `s` fails, innermost step first, and for each step how many values had been
read completely into arrays and objects inside of it; second, the number of values read at all levels.
An unreadable key is an empty name. -/
def locV (cfg : Cfg) : Nat → Bytes → List (Ctx × Nat) × Nat
  | 0, _ => ([], 0)
  | f + 1, s =>
    match skipWs s with
    | [] => ([], 0)
    | c :: r =>
      if c = 0x7B then
        match skipWs r with
        | [] => ([], 0)
        | c' :: r' =>
          match Parser.parseMembers cfg f (c' :: r') with
          | .ok p => ([], p.1.length)
          | _ => locMembers cfg f 0 (c' :: r')
      else if c = 0x5B then
        match skipWs r with
        | [] => ([(.idx 0, 0)], 0)
        | c' :: r' => locItems cfg f 0 (c' :: r')
      else ([], 0)
/-- The same in an object, of which `n` members have been read. -/
def locMembers (cfg : Cfg) : Nat → Nat → Bytes → List (Ctx × Nat) × Nat
  | 0, n, _ => ([], n)
  | _ + 1, n, [] => ([], n)
  | f + 1, n, q :: r =>
    if q = 0x22 then
      match readStr cfg Utf8.Dec.init r with
      | .ok k =>
        match skipWs k.2 with
        | [] => ([(.key k.1, 0)], n)
        | c :: r2 =>
          if c = 0x3A then
            match Parser.parseV cfg f r2 with
            | .ok v =>
              match skipWs v.2 with
              | [] => ([], n + 1)
              | c2 :: r4 => if c2 = 0x2C then locMembers cfg f (n + 1) (skipWs r4) else ([], n + 1)
            | _ => ((locV cfg f r2).1 ++ [(.key k.1, (locV cfg f r2).2)], n + (locV cfg f r2).2)
          else ([(.key k.1, 0)], n)
      | _ => ([(.key [], 0)], n)
    else ([], n)
/-- The same in an array, of which `n` items have been read. -/
def locItems (cfg : Cfg) : Nat → Nat → Bytes → List (Ctx × Nat) × Nat
  | 0, n, _ => ([], n)
  | f + 1, n, s =>
    match Parser.parseV cfg f s with
    | .ok v =>
      match skipWs v.2 with
      | [] => ([(.idx (n + 1), 0)], n + 1)
      | c2 :: r4 => if c2 = 0x2C then locItems cfg f (n + 1) r4 else ([(.idx (n + 1), 0)], n + 1)
    | _ => ((locV cfg f s).1 ++ [(.idx n, (locV cfg f s).2)], n + (locV cfg f s).2)
end

/-- What the parser reports for a step: the values inside are counted as if they were items of the array. -/
def shown : Ctx × Nat → Ctx
  | (.key k, _) => .key k
  | (.idx i, x) => .idx (i + x)

/-- Correspondence of the parser with scratch memory to the parser without. -/
def SimBy {α β : Type} (good : α → Bytes → Out β) (loc : List (Ctx × Nat) × Nat) (m : Mem) (y : Out β) :
    Res (α × Bytes) → Prop
  | .ok p => y = good p.1 p.2
  | .err => ∃ l, l.length = loc.2 ∧ y = .err (loc.1.map shown) ⟨m.str, m.arr ++ l⟩
  | .fuel => y = .fuel
  | _ => False

theorem readLoop_sim (cfg : Cfg) (d : Utf8.Dec) (s : Bytes) (t : Bytes) :
    (∃ p, readStr cfg d s = .ok p ∧ readLoop cfg d s t = (some p.2, t ++ p.1))
      ∨ (readStr cfg d s = .err ∧ ∃ b, readLoop cfg d s t = (none, t ++ b)) := by
  induction hn : s.length using Nat.strongRecOn generalizing s d t with
  | ind n ih =>
    cases s with
    | nil => right; exact ⟨rfl, [], by simp [readLoop]⟩
    | cons c cs =>
      unfold readStr readLoop
      split
      · right; exact ⟨rfl, [], by simp⟩
      · split
        · left; exact ⟨([], cs), rfl, by simp⟩
        · split
          · cases cs with
            | nil => right; exact ⟨rfl, [], by simp⟩
            | cons e es =>
              simp only
              split
              · match es with
                | h1 :: h2 :: h3 :: h4 :: r =>
                  simp only
                  rcases ih r.length (by subst hn; simp; omega) d r (t ++ storeUnicode (((hexDigit h1 * 16 + hexDigit h2) * 16 + hexDigit h3) * 16 + hexDigit h4)) rfl with ⟨p, h1, h2⟩ | ⟨h1, b, h2⟩
                  · left; exact ⟨_, by rw [h1]; rfl, by rw [h2]; simp⟩
                  · right; exact ⟨by rw [h1]; rfl, _, by rw [h2, List.append_assoc]⟩
                | [] => right; exact ⟨rfl, _, rfl⟩
                | [_] => right; exact ⟨rfl, _, rfl⟩
                | [_, _] => right; exact ⟨rfl, _, rfl⟩
                | [_, _, _] => right; exact ⟨rfl, _, rfl⟩
              · cases hse : simpleEsc e with
                | none => right; exact ⟨rfl, [], by simp⟩
                | some b =>
                  simp only
                  rcases ih es.length (by subst hn; simp; omega) d es (t ++ [b]) rfl with ⟨p, h1, h2⟩ | ⟨h1, b', h2⟩
                  · left; exact ⟨_, by rw [h1]; rfl, by rw [h2]; simp⟩
                  · right; exact ⟨by rw [h1]; rfl, _, by rw [h2, List.append_assoc]⟩
          · simp only
            rcases ih cs.length (by subst hn; simp) (d.step (cfg.ext c)).1 cs
              (t ++ ((d.step (cfg.ext c)).2.map storeUnicode).getD []) rfl with ⟨p, h1, h2⟩ | ⟨h1, b', h2⟩
            · left; exact ⟨_, by rw [h1]; rfl, by rw [h2]; simp⟩
            · right; exact ⟨by rw [h1]; rfl, _, by rw [h2, List.append_assoc]⟩

/-- `readString` either appends exactly the string or leaves the memory as it was. -/
theorem readString_sim (cfg : Cfg) (s : Bytes) (m : Mem) :
    (∃ p, readStr cfg Utf8.Dec.init s = .ok p
        ∧ readString cfg s m = .ok (m.str.length, p.1.length) p.2 ⟨m.str ++ p.1, m.arr⟩)
      ∨ (readStr cfg Utf8.Dec.init s = .err ∧ readString cfg s m = .err [] m) := by
  rcases readLoop_sim cfg Utf8.Dec.init s m.str with ⟨p, h1, h2⟩ | ⟨h1, b, h2⟩
  · left; exact ⟨p, h1, by simp [readString, h2]⟩
  · right; exact ⟨h1, by simp [readString, h2]⟩

theorem parseString_sim (cfg : Cfg) (s : Bytes) (m : Mem) :
    (∃ p, readStr cfg Utf8.Dec.init s = .ok p ∧ ParserMem.parseString cfg s m = .ok (stringValue p.1) p.2 m)
      ∨ (readStr cfg Utf8.Dec.init s = .err ∧ ParserMem.parseString cfg s m = .err [] m) := by
  rcases readString_sim cfg s m with ⟨p, h1, h2⟩ | ⟨h1, h2⟩
  · left; exact ⟨p, h1, by simp [ParserMem.parseString, h2, freeString, getString]⟩
  · right; exact ⟨h1, by simp [ParserMem.parseString, h2]⟩

theorem parsePrecise_cases (s : Bytes) : (∃ p, parsePrecise s = .ok p) ∨ parsePrecise s = .err := by
  have := parsePrecise_good s
  revert this
  cases parsePrecise s <;> simp [GoodBy]

theorem parseNumber_sim (cfg : Cfg) (s : Bytes) (m : Mem) :
    (∃ p, Parser.parseNumber cfg s = .ok p ∧ ParserMem.parseNumber cfg s m = .ok p.1 p.2 m)
      ∨ (Parser.parseNumber cfg s = .err ∧ ParserMem.parseNumber cfg s m = .err [] m) := by
  by_cases hp : cfg.precise = true
  · rcases parsePrecise_cases s with ⟨p, h⟩ | h
    · left
      refine ⟨_, by rw [Parser.parseNumber, if_pos hp, h]; rfl, ?_⟩
      simp [ParserMem.parseNumber, hp, parsePreciseNumber, h, freeString, getString]
    · right
      refine ⟨by rw [Parser.parseNumber, if_pos hp, h]; rfl, ?_⟩
      simp [ParserMem.parseNumber, hp, parsePreciseNumber, h]
  · have := parseNumber_good cfg s
    rw [ParserMem.parseNumber, if_neg hp]
    revert this
    cases Parser.parseNumber cfg s <;> simp [Good]

theorem kw_sim (k : Bytes) (v : JV) (s : Bytes) (m : Mem) :
    (∃ r, checkKw k s = .ok r ∧ parseKw k v s m = .ok v r m) ∨ (checkKw k s = .err ∧ parseKw k v s m = .err [] m) := by
  have := checkKw_good k s
  revert this
  rw [parseKw]
  cases checkKw k s <;> simp [GoodBy]

theorem parseMem_sim (cfg : Cfg) (f : Nat) :
    (∀ s m, SimBy (fun v r => .ok v r m) (locV cfg f s) m (ParserMem.parseV cfg f s m) (Parser.parseV cfg f s))
    ∧ (∀ s n (name : StrIdx) (m : Mem) (base : List (Option Bytes × JV)) (got : List (Option Bytes × JV)),
        m.str.length ≤ name.1 ∨ name.2 = 0 → m.arr = base ++ got → got.length = n →
        SimBy (fun (ms : List (Bytes × JV)) r => Out.ok () r ⟨m.str, m.arr ++ ms.map fun p => (some p.1, p.2)⟩)
          (locMembers cfg f n s) ⟨m.str, base⟩ (ParserMem.parseMembers cfg f name s m) (Parser.parseMembers cfg f s))
    ∧ (∀ s n (m : Mem) (base : List (Option Bytes × JV)) (got : List (Option Bytes × JV)),
        m.arr = base ++ got → got.length = n →
        SimBy (fun (vs : List JV) r => Out.ok () r ⟨m.str, m.arr ++ vs.map fun v => (none, v)⟩)
          (locItems cfg f n s) ⟨m.str, base⟩ (ParserMem.parseItems cfg f base.length s m) (Parser.parseItems cfg f s)) := by
  induction f with
  | zero =>
    refine ⟨fun s m => ?_, fun s n name m base got _ _ _ => ?_, fun s n m base got _ _ => ?_⟩
    · simp [Parser.parseV, ParserMem.parseV, SimBy]
    · simp [Parser.parseMembers, ParserMem.parseMembers, SimBy]
    · simp [Parser.parseItems, ParserMem.parseItems, SimBy]
  | succ f ih =>
    obtain ⟨ihV, ihM, ihI⟩ := ih
    refine ⟨fun s m => ?_, fun s n name m base got hname harr hn => ?_, fun s n m base got harr hn => ?_⟩
    · have leaf : ∀ (x : Res (JV × Bytes)) (y : Out JV), ((∃ p, x = .ok p ∧ y = .ok p.1 p.2 m) ∨ (x = .err ∧ y = .err [] m)) →
          SimBy (fun v r => .ok v r m) (([] : List (Ctx × Nat)), 0) m y x := by
        rintro x y (⟨p, rfl, rfl⟩ | ⟨rfl, rfl⟩)
        · rfl
        · exact ⟨[], rfl, by simp⟩
      unfold Parser.parseV ParserMem.parseV locV
      cases skipWs s with
      | nil => exact leaf _ _ (.inr ⟨rfl, rfl⟩)
      | cons c r =>
        simp only
        by_cases hc : c = 0x7B
        · simp only [if_pos hc]
          cases hr : skipWs r with
          | nil => exact leaf _ _ (.inr ⟨rfl, rfl⟩)
          | cons c' r' =>
            simp only
            by_cases hc' : c' = 0x7D
            · simp only [if_pos hc']; rfl
            · simp only [if_neg hc']
              have h := ihM (c' :: r') 0 (0, 0) m m.arr [] (.inr rfl) (by simp) rfl
              revert h
              cases hm : Parser.parseMembers cfg f (c' :: r') with
              | ok p =>
                intro h
                simp only [SimBy] at h
                rw [h]
                simp only [Res.bind_ok, ParserMem.finishObj, Parser.finishObj]
                simp only [List.drop_left, List.take_left, List.map_map]
                have he : (p.1.map ((fun (q : Option Bytes × JV) => (q.1.getD [], q.2)) ∘ fun q => (some q.1, q.2))) = p.1 := by
                  rw [List.map_congr_left (g := id)]
                  · simp
                  · intro a _; rfl
                rw [he]
                split
                · exact ⟨_, by simp, rfl⟩
                · rfl
              | err => 
                intro h
                obtain ⟨l, h1, h2⟩ := h
                rw [h2]
                exact ⟨l, h1, rfl⟩
              | fuel => intro h; simp only [SimBy] at h; rw [h]; rfl
              | ub => intro h; exact h.elim
              | abort => intro h; exact h.elim
        · simp only [if_neg hc]
          by_cases hb : c = 0x5B
          · simp only [if_pos hb]
            cases hr : skipWs r with
            | nil => exact ⟨[], rfl, by simp [shown]⟩
            | cons c' r' =>
              simp only
              by_cases hc' : c' = 0x5D
              · simp only [if_pos hc']; rfl
              · simp only [if_neg hc']
                have h := ihI (c' :: r') 0 m m.arr [] (by simp) rfl
                revert h
                cases hm : Parser.parseItems cfg f (c' :: r') with
                | ok p =>
                  intro h
                  simp only [SimBy] at h
                  rw [h]
                  simp [SimBy, Function.comp_def]
                | err =>
                  intro h
                  obtain ⟨l, h1, h2⟩ := h
                  rw [h2]
                  exact ⟨l, h1, rfl⟩
                | fuel => intro h; simp only [SimBy] at h; rw [h]; rfl
                | ub => intro h; exact h.elim
                | abort => intro h; exact h.elim
          · simp only [if_neg hb]
            have kw : ∀ (k : Bytes) (v : JV) (t : Bytes), SimBy (fun v r => .ok v r m) (([] : List (Ctx × Nat)), 0) m
                (parseKw k v t m) (do let r ← checkKw k t; pure (v, r)) := by
              intro k v t
              rcases kw_sim k v t m with ⟨r, h1, h2⟩ | ⟨h1, h2⟩ <;> rw [h1, h2]
              · rfl
              · exact ⟨[], rfl, by simp⟩
            split
            · rcases parseString_sim cfg r m with ⟨p, h1, h2⟩ | ⟨h1, h2⟩ <;> rw [h1, h2]
              · rfl
              · exact ⟨[], rfl, by simp⟩
            · split
              · exact kw _ _ _
              · split
                · exact kw _ _ _
                · split
                  · exact kw _ _ _
                  · split
                    · exact leaf _ _ (parseNumber_sim cfg _ m)
                    · exact leaf _ _ (.inr ⟨rfl, rfl⟩)
    · obtain ⟨mstr, marr⟩ := m
      simp only at harr
      subst harr
      cases s with
      | nil => exact ⟨got, hn, by simp [ParserMem.parseMembers, locMembers]⟩
      | cons q r =>
        unfold Parser.parseMembers ParserMem.parseMembers locMembers
        by_cases hq : q = 0x22
        · simp only [if_pos hq]
          rcases readString_sim cfg r ⟨mstr, base ++ got⟩ with ⟨p, h1, h2⟩ | ⟨h1, h2⟩
          · rw [h1, h2]
            simp only [Res.bind_ok]
            have hcatch : ∀ cs (l : List (Option Bytes × JV)), catchMember cs (mstr.length, p.1.length) ⟨mstr ++ p.1, (base ++ got) ++ l⟩
                = .err (cs ++ [.key p.1]) ⟨mstr, (base ++ got) ++ l⟩ := by
              intro cs l
              simp [catchMember, freeString, getString]
            have hcatch0 := fun cs => hcatch cs []
            simp only [List.append_nil] at hcatch0
            cases hk : skipWs p.2 with
            | nil => exact ⟨got, hn, by simp [hcatch0, shown]⟩
            | cons c r2 =>
              simp only
              by_cases hc : c = 0x3A
              · simp only [if_pos hc]
                have h := ihV r2 ⟨mstr ++ p.1, (base ++ got)⟩
                revert h
                cases hv : Parser.parseV cfg f r2 with
                | ok v =>
                  intro h
                  simp only [SimBy] at h
                  rw [h]
                  simp only [Res.bind_ok]
                  have hf : freeString ⟨mstr ++ p.1, (base ++ got) ++ [(some (getString ⟨mstr ++ p.1, (base ++ got)⟩ (mstr.length, p.1.length)), v.1)]⟩
                      (mstr.length, p.1.length) = some ⟨mstr, (base ++ got) ++ [(some p.1, v.1)]⟩ := by
                    simp [freeString, getString]
                  rw [hf]
                  simp only
                  cases hw : skipWs v.2 with
                  | nil => exact ⟨got ++ [(some p.1, v.1)], by simp [hn], by simp⟩
                  | cons c2 r4 =>
                    simp only
                    by_cases h7 : c2 = 0x7D
                    · simp only [if_pos h7]
                      rfl
                    · simp only [if_neg h7]
                      by_cases h2c : c2 = 0x2C
                      · simp only [if_pos h2c]
                        have h := ihM (skipWs r4) (n + 1) (mstr.length, p.1.length) ⟨mstr, (base ++ got) ++ [(some p.1, v.1)]⟩ base
                          (got ++ [(some p.1, v.1)]) (.inl (Nat.le_refl _)) (by simp) (by simp [hn])
                        revert h
                        cases Parser.parseMembers cfg f (skipWs r4) with
                        | ok ms => intro h; simp only [SimBy] at h; rw [h]; simp [SimBy]
                        | err => intro h; exact h
                        | fuel => intro h; exact h
                        | ub => intro h; exact h.elim
                        | abort => intro h; exact h.elim
                      · simp only [if_neg h2c]
                        exact ⟨got ++ [(some p.1, v.1)], by simp [hn], by simp⟩
                | err =>
                  intro h
                  obtain ⟨l, h1, h2⟩ := h
                  rw [h2]
                  simp only [hcatch]
                  exact ⟨got ++ l, by simp [hn, h1], by simp [shown]⟩
                | fuel => intro h; simp only [SimBy] at h; rw [h]; rfl
                | ub => intro h; exact h.elim
                | abort => intro h; exact h.elim
              · simp only [if_neg hc]
                exact ⟨got, hn, by simp [hcatch0, shown]⟩
          · rw [h1, h2]
            refine ⟨got, hn, ?_⟩
            have : getString ⟨mstr, base ++ got⟩ name = [] := by
              rw [getString]
              rcases hname with h | h
              · rw [List.drop_eq_nil_of_le h, List.take_nil]
              · rw [h]; rfl
            simp [this, shown]
        · simp only [if_neg hq]
          exact ⟨got, hn, by simp⟩
    · obtain ⟨mstr, marr⟩ := m
      simp only at harr
      subst harr
      unfold Parser.parseItems ParserMem.parseItems locItems
      have h := ihV s ⟨mstr, base ++ got⟩
      revert h
      cases hv : Parser.parseV cfg f s with
      | ok v =>
        intro h
        simp only [SimBy] at h
        rw [h]
        simp only [Res.bind_ok]
        have hlen : base.length + (n + 1) - base.length = n + 1 := by omega
        cases hw : skipWs v.2 with
        | nil => exact ⟨got ++ [(none, v.1)], by simp [hn], by simp [shown, hn, hlen]⟩
        | cons c2 r4 =>
          simp only
          by_cases h7 : c2 = 0x5D
          · simp only [if_pos h7]
            rfl
          · simp only [if_neg h7]
            by_cases h2c : c2 = 0x2C
            · simp only [if_pos h2c]
              have h := ihI r4 (n + 1) ⟨mstr, (base ++ got) ++ [(none, v.1)]⟩ base
                (got ++ [(none, v.1)]) (by simp) (by simp [hn])
              revert h
              cases Parser.parseItems cfg f r4 with
              | ok ms => intro h; simp only [SimBy] at h; rw [h]; simp [SimBy]
              | err => intro h; exact h
              | fuel => intro h; exact h
              | ub => intro h; exact h.elim
              | abort => intro h; exact h.elim
            · simp only [if_neg h2c]
              exact ⟨got ++ [(none, v.1)], by simp [hn], by simp [shown, hn, hlen]⟩
      | err =>
        intro h
        obtain ⟨l, h1, h2⟩ := h
        rw [h2]
        have hlen : base.length + (n + l.length) - base.length = n + l.length := by omega
        exact ⟨got ++ l, by simp [hn, h1], by simp [shown, hn, ← h1, hlen]⟩
      | fuel => intro h; simp only [SimBy] at h; rw [h]; rfl
      | ub => intro h; exact h.elim
      | abort => intro h; exact h.elim

theorem parseMem_cases (cfg : Cfg) (s : Bytes) (m : Mem) :
    (∃ v r, Parser.parse cfg s = .ok (v, r) ∧ ParserMem.parse cfg s m = .ok v r m)
      ∨ (Parser.parse cfg s = .err ∧ ∃ l, l.length = (locV cfg (2 * s.length + 1) s).2
          ∧ ParserMem.parse cfg s m
            = .err ((locV cfg (2 * s.length + 1) s).1.map shown) ⟨m.str, m.arr ++ l⟩) := by
  have h := (parseMem_sim cfg (2 * s.length + 1)).1 s m
  have hg := (parse_good cfg (2 * s.length + 1)).1 s (by omega)
  rw [Parser.parse, ParserMem.parse]
  revert h hg
  cases Parser.parseV cfg (2 * s.length + 1) s with
  | ok p => intro h _; exact .inl ⟨p.1, p.2, rfl, h⟩
  | err => intro h _; exact .inr ⟨rfl, h⟩
  | fuel => intro _ h; exact h.elim
  | ub => intro _ h; exact h.elim
  | abort => intro _ h; exact h.elim

/-! ### C137 -/

/-- Whatever the two vectors hold when `parse` is called, the value read and the rest of the input are those of the parser without
scratch memory; the vectors are then as before, and no assertion of `freeString` fails. -/
theorem C137_ok (cfg : Cfg) (s : Bytes) (m : Mem) (v : JV) (r : Bytes) :
    Parser.parse cfg s = .ok (v, r) ↔ ParserMem.parse cfg s m = .ok v r m := by
  rcases parseMem_cases cfg s m with ⟨v', r', h1, h2⟩ | ⟨h1, l, _, h2⟩
  · rw [h1, h2]; simp
  · rw [h1, h2]; simp

/-- A text is refused exactly if the parser without scratch memory refuses it. The strings are cleaned up, `tmpArr` still has all it
had, possibly followed by abandoned values. -/
theorem C137_err (cfg : Cfg) (s : Bytes) (m : Mem) :
    (Parser.parse cfg s = .err ↔ ∃ cs m', ParserMem.parse cfg s m = .err cs m')
      ∧ ∀ cs m', ParserMem.parse cfg s m = .err cs m' → m'.str = m.str ∧ m.arr <+: m'.arr := by
  rcases parseMem_cases cfg s m with ⟨v', r', h1, h2⟩ | ⟨h1, l, _, h2⟩
  · rw [h1, h2]; simp
  · rw [h1, h2]
    refine ⟨by simp, ?_⟩
    intro cs m' h
    injection h with _ h
    subst h
    exact ⟨rfl, List.prefix_append _ _⟩

/-- The assertion of `freeString` never fails and the recursion ends. -/
theorem C137_no_assertion (cfg : Cfg) (s : Bytes) (m : Mem) :
    ParserMem.parse cfg s m ≠ .assertion ∧ ParserMem.parse cfg s m ≠ .fuel := by
  rcases parseMem_cases cfg s m with ⟨v', r', h1, h2⟩ | ⟨h1, l, _, h2⟩ <;> rw [h2] <;> simp

/-- One parser object can be used any number of times, also after errors: each text gives what it gives to a new parser. -/
theorem C137_reuse (cfg : Cfg) (ss : List Bytes) (m : Mem) :
    ∃ m', ParserMem.parseAll cfg ss m
        = some (ss.map fun s => match Parser.parse cfg s with | .ok p => some p | _ => none, m')
      ∧ m'.str = m.str := by
  induction ss generalizing m with
  | nil => exact ⟨m, rfl, rfl⟩
  | cons s ss ih =>
    rw [ParserMem.parseAll]
    rcases parseMem_cases cfg s m with ⟨v', r', h1, h2⟩ | ⟨h1, l, _, h2⟩
    · obtain ⟨m', h3, h4⟩ := ih m
      refine ⟨m', ?_, h4⟩
      rw [h2]
      simp [h3, h1]
    · obtain ⟨m', h3, h4⟩ := ih ⟨m.str, m.arr ++ l⟩
      refine ⟨m', ?_, h4⟩
      rw [h2]
      simp [h3, h1]

/-- An array with an error after its first item. -/
def brokenArr : Bytes := ascii "[1,"

theorem brokenArr_parse (m : Mem) :
    ∃ x cs, ParserMem.parse {} brokenArr m = .err cs ⟨m.str, m.arr ++ [x]⟩ := by
  rcases parseMem_cases {} brokenArr m with ⟨v', r', h1, h2⟩ | ⟨h1, l, hl, h2⟩
  · exact absurd h1 (by rw [show Parser.parse {} brokenArr = .err by decide +kernel]; simp)
  · rw [show (locV {} (2 * brokenArr.length + 1) brokenArr).2 = 1 by decide +kernel] at hl
    obtain ⟨x, rfl⟩ := List.length_eq_one_iff.1 hl
    exact ⟨x, _, h2⟩

/-- Violation: values read before an error stay in `tmpArr` for good; a parser used for a sequence of messages keeps one more set of
values alive for every message with an error (parser.h:315-318, 336-338, 357-361 do not cut `tmpArr`). -/
theorem C137_violation_abandoned (n : Nat) :
    ∃ rs m, ParserMem.parseAll {} (List.replicate n brokenArr) fresh = some (rs, m) ∧ m.arr.length = n := by
  suffices h : ∀ l, ∃ rs m, ParserMem.parseAll {} (List.replicate n brokenArr) ⟨[], l⟩ = some (rs, m)
      ∧ m.arr.length = l.length + n by simpa [fresh] using h []
  induction n with
  | zero => intro l; exact ⟨[], _, rfl, rfl⟩
  | succ n ih =>
    intro l
    obtain ⟨x, cs, hb⟩ := brokenArr_parse ⟨[], l⟩
    obtain ⟨rs, m, h, hl⟩ := ih (l ++ [x])
    refine ⟨none :: rs, m, ?_, ?_⟩
    · rw [List.replicate_succ, ParserMem.parseAll, hb]
      simp [h]
    · rw [hl]; simp; omega

/-- `C137_ok` with an object, read by a parser whose vectors are not empty. -/
example : ∃ v r, Parser.parse {} (ascii "{\"a\":[1,2]} ") = .ok (v, r)
    ∧ ParserMem.parse {} (ascii "{\"a\":[1,2]} ") ⟨[1, 2], [(none, .null)]⟩ = .ok v r ⟨[1, 2], [(none, .null)]⟩ := by
  exact ⟨.obj [(ascii "a", .arr [.num (.uint 1), .num (.uint 2)])], ascii " ", by decide +kernel, (C137_ok _ _ _ _ _).1 (by decide +kernel)⟩

/-! ### C138 -/

/-- The contexts of the error are exactly the steps to the failing place, each index increased by the number of values abandoned
inside of it. -/
theorem C138_position (cfg : Cfg) (s : Bytes) (m : Mem) (cs : List Ctx) (m' : Mem)
    (h : ParserMem.parse cfg s m = .err cs m') : cs = (locV cfg (2 * s.length + 1) s).1.map shown := by
  rcases parseMem_cases cfg s m with ⟨v', r', h1, h2⟩ | ⟨h1, l, _, h2⟩
  · rw [h2] at h; exact absurd h (by simp)
  · rw [h2] at h; injection h with h _; exact h.symm

/-- The position has the right number of steps, the right names, and an index in place of each index, never too small. -/
theorem C138_names (cfg : Cfg) (s : Bytes) (m : Mem) (cs : List Ctx) (m' : Mem) (h : ParserMem.parse cfg s m = .err cs m') :
    List.Forall₂ (fun c (x : Ctx) => match c, x with
      | .key a, .key b => a = b
      | .idx i, .idx j => j ≤ i
      | _, _ => False) cs ((locV cfg (2 * s.length + 1) s).1.map Prod.fst) := by
  rw [C138_position cfg s m cs m' h]
  induction (locV cfg (2 * s.length + 1) s).1 with
  | nil => exact .nil
  | cons a l ih =>
    refine .cons ?_ ih
    rcases a with ⟨_ | _, _⟩ <;> simp [shown]

/-- Partial: the whole position is right if no values were read inside of the array items on the way. Missing: see the violations. -/
theorem C138_exact_partial (cfg : Cfg) (s : Bytes) (m : Mem) (cs : List Ctx) (m' : Mem)
    (h : ParserMem.parse cfg s m = .err cs m') (h0 : ∀ p ∈ (locV cfg (2 * s.length + 1) s).1, ∀ i, p.1 = .idx i → p.2 = 0) :
    cs = (locV cfg (2 * s.length + 1) s).1.map Prod.fst := by
  rw [C138_position cfg s m cs m' h]
  refine List.map_congr_left (fun p hp => ?_)
  have := h0 p hp
  rcases p with ⟨_ | i, x⟩
  · rfl
  · simp [shown]; exact this i rfl

/-- The position does not depend on what the parser was used for before. -/
theorem C138_fresh (cfg : Cfg) (s : Bytes) (m : Mem) (cs : List Ctx) (m' : Mem) (h : ParserMem.parse cfg s m = .err cs m') :
    ∃ m'', ParserMem.parse cfg s fresh = .err cs m'' := by
  obtain ⟨cs', m'', h2⟩ := ((C137_err cfg s fresh).1.1 ((C137_err cfg s m).1.2 ⟨cs, m', h⟩))
  refine ⟨m'', ?_⟩
  rw [h2, C138_position cfg s m cs m' h, C138_position cfg s fresh cs' m'' h2]

/-- Violation: the error is in item 2 of item 0, reported is item 2 of item 2. -/
theorem C138_violation_nested : ∃ m', ParserMem.parse {} (ascii "[[7,8,x]]") fresh = .err [.idx 2, .idx 2] m'
    ∧ (locV {} 19 (ascii "[[7,8,x]]")).1.map Prod.fst = [.idx 2, .idx 0] :=
  ⟨⟨[], [(none, .num (.uint 7)), (none, .num (.uint 8))]⟩, by decide +kernel, by decide +kernel⟩

/-- Violation: the error is in the object that is item 0, reported is item 2, the number of its members read so far. -/
theorem C138_violation_object : ∃ m', ParserMem.parse {} (ascii "[{\"a\":7,\"b\":8 x]") fresh = .err [.idx 2] m'
    ∧ (locV {} 33 (ascii "[{\"a\":7,\"b\":8 x]")).1.map Prod.fst = [.idx 0] :=
  ⟨⟨[], [(some (ascii "a"), .num (.uint 7)), (some (ascii "b"), .num (.uint 8))]⟩, by decide +kernel, by decide +kernel⟩

/-- `C138_position`, `C138_names`, `C138_fresh`: the text of `C138_violation_nested`. -/
example : ∃ cs m', ParserMem.parse {} (ascii "[[7,8,x]]") fresh = .err cs m' ∧ cs ≠ [] :=
  ⟨_, _, C138_violation_nested.choose_spec.1, by simp⟩

/-- `C138_exact_partial`: `{"k":[5,tru]}` fails in item 1 of member `k`. -/
example : (∃ m', ParserMem.parse {} (ascii "{\"k\":[5,tru]}") fresh = .err [.idx 1, .key (ascii "k")] m')
    ∧ ∀ p ∈ (locV {} 29 (ascii "{\"k\":[5,tru]}")).1, ∀ i, p.1 = .idx i → p.2 = 0 := by
  refine ⟨⟨⟨[], [(none, .num (.uint 5))]⟩, by decide +kernel⟩, ?_⟩
  rw [show (locV {} 29 (ascii "{\"k\":[5,tru]}")).1 = [(.idx 1, 0), (.key (ascii "k"), 1)] by decide +kernel]
  simp

/-- `what` never returns a text made before the last context was added: whatever was done with the error, its text is that of its
message and contexts. -/
theorem C138_what (e : PErr) (us : List PUse) (h : e.whatmsg = [] ∨ e.whatmsg = e.render) :
    (us.foldl PErr.use e).what.1 = (us.foldl PErr.use e).render := by
  suffices hs : ∀ (e : PErr), (e.whatmsg = [] ∨ e.whatmsg = e.render) →
      (us.foldl PErr.use e).whatmsg = [] ∨ (us.foldl PErr.use e).whatmsg = (us.foldl PErr.use e).render by
    rcases hs e h with h | h
    · rw [PErr.what, if_pos h]
    · rw [PErr.what]; split
      · rfl
      · exact h
  induction us with
  | nil => exact fun e h => h
  | cons u us ih =>
    intro e h
    refine ih _ ?_
    cases u with
    | what =>
      rw [PErr.use, PErr.what]
      split
      · right; rfl
      · exact h
    | add c => left; rfl

/-- The contexts given to a new error are all in its text, the last one first. -/
theorem C138_text (msg : Bytes) (li : Int) (cs : List Ctx) :
    ∃ tail, (cs.foldl (fun e c => e.addContext c.text) (PErr.new msg li)).what.1
      = ascii "Parse error: '" ++ msg ++ ascii "' at <root>" ++ (cs.reverse.flatMap fun c => ascii "/" ++ c.text) ++ tail := by
  have h : ∀ (cs : List Ctx) (e : PErr), e.whatmsg = [] → (cs.foldl (fun e c => e.addContext c.text) e)
      = ⟨e.msg, e.lastInput, e.callstack ++ cs.map Ctx.text, []⟩ := by
    intro cs
    induction cs with
    | nil => intro e h; cases e; simp_all
    | cons c cs ih => intro e h; rw [List.foldl_cons, ih _ rfl]; simp [PErr.addContext]
  rw [h cs _ rfl, PErr.what, if_pos rfl, PErr.render]
  simp only [PErr.new, List.nil_append, ← List.map_reverse, List.flatMap_map, List.append_assoc]
  exact ⟨_, rfl⟩

/-- `C138_what`, `C138_text`: a new error. -/
example : (PErr.new (ascii "Unexpected data") 120).whatmsg = []
    ∧ ([PUse.what, .add (ascii "[0]"), .add (ascii "k")].foldl PErr.use (PErr.new (ascii "Unexpected data") 120)).what.1
      = ascii "Parse error: 'Unexpected data' at <root>/k/[0]. Last input: 120('x')." := by
  decide +kernel

end Imt.Props
