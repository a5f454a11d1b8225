import Verif.Props.SerLine
import Verif.Lemmas.ParserSound
import Verif.Lemmas.ObjB
/-!
# What was read is written and read again as the same value (C174)
-/
namespace Imt.Props
open Imt Imt.Spec Imt.Ser Imt.Parser

mutual
/-- The values the parser makes, `p` – keeping numbers as text: no undefined, integers of 64 bits (negative ones above the least), no
string that is a sign of infinity, keys of objects ascending. -/
def FromText (p : Bool) : JV → Prop
  | .undef => False
  | .num (.uint n) => p = false ∧ n < 2 ^ 64
  | .num (.int i) => p = false ∧ -2 ^ 63 < i ∧ i < 0
  | .num (.prec t c) => p = true ∧ ∃ s fl r, parsePrecise s = .ok (t, fl, r) ∧ numberFromStringRaw t fl = .prec t c
  | .num (.dbl _) => p = false
  | .str s => s ≠ infSign ∧ s ≠ 0x2D :: infSign
  | .arr l => FromTextL p l
  | .obj l => StrictSorted l ∧ FromTextM p l
  | _ => True
/-- Items. -/
def FromTextL (p : Bool) : List JV → Prop
  | [] => True
  | v :: l => FromText p v ∧ FromTextL p l
/-- Members. -/
def FromTextM (p : Bool) : List (Bytes × JV) → Prop
  | [] => True
  | (_, v) :: l => FromText p v ∧ FromTextM p l
end

theorem madeM_iff (p : Bool) : ∀ l : List (Bytes × JV), FromTextM p l ↔ ∀ m ∈ l, FromText p m.2
  | [] => by simp [FromTextM]
  | (k, v) :: l => by rw [FromTextM, madeM_iff p l]; simp

theorem made_stringValue (p : Bool) (b : Bytes) : FromText p (stringValue b) := by
  unfold stringValue
  split
  · simp [FromText]
  · split
    · simp [FromText]
    · rename_i h1 h2
      rw [FromText]
      exact ⟨h1, h2⟩

theorem parseDouble_made {cfg : Cfg} {n : Nat} {neg : Bool} {s : Bytes} {v : JV} {r : Bytes} (h : parseDouble cfg n neg s = .ok (v, r)) :
    ∃ d, v = .num (.dbl d) := by
  unfold parseDouble at h
  dsimp only at h
  split at h
  · cases h
  · obtain ⟨a, h1, h2⟩ := bind_ok_inv h
    obtain ⟨b, h3, h4⟩ := bind_ok_inv h2
    cases h4
    exact ⟨_, rfl⟩

theorem parseNumber_made {cfg : Cfg} {s : Bytes} {v : JV} {r : Bytes} (h : parseNumber cfg s = .ok (v, r)) : FromText cfg.precise v := by
  unfold parseNumber at h
  split at h
  · next hp =>
    obtain ⟨⟨txt, fl, r'⟩, h1, h2⟩ := bind_ok_inv h
    cases h2
    obtain ⟨cls, hc⟩ := numberFromStringRaw_prec txt fl
    rw [hc, FromText]
    exact ⟨hp, _, _, _, h1, hc⟩
  · next hp =>
    have hp : cfg.precise = false := by simpa using hp
    dsimp only at h
    split at h
    · cases h
    · next c cs he =>
      split at h
      · obtain ⟨ds, d1, d2, d3, d4⟩ := parseUnsigned_inv (c :: cs) 0 (by decide)
        split at h
        · obtain ⟨d, rfl⟩ := parseDouble_made h
          rw [FromText]; exact hp
        · split at h
          · split at h
            · cases h; rw [FromText]; exact hp
            · cases h
              unfold valueOfInt
              split
              · rw [FromText]; exact ⟨hp, by decide⟩
              · rw [FromText]; exact ⟨hp, by omega, by omega⟩
          · cases h
            rw [valueOfUInt, FromText]
            exact ⟨hp, d4⟩
      · cases h

theorem parse_made (cfg : Cfg) : ∀ f : Nat, (∀ s v r, parseV cfg f s = .ok (v, r) → FromText cfg.precise v) ∧
    (∀ s m r, parseMembers cfg f s = .ok (m, r) → FromTextM cfg.precise m) ∧
    (∀ s m r, parseItems cfg f s = .ok (m, r) → FromTextL cfg.precise m) := by
  intro f
  induction f with
  | zero =>
    refine ⟨?_, ?_, ?_⟩
    · intro s v r h; rw [parseV.eq_def] at h; cases h
    · intro s v r h; rw [parseMembers.eq_def] at h; cases h
    · intro s v r h; rw [parseItems.eq_def] at h; cases h
  | succ f ih =>
    obtain ⟨ihV, ihM, ihI⟩ := ih
    refine ⟨?_, ?_, ?_⟩
    · intro s v r h
      rw [parseV.eq_def] at h
      dsimp only at h
      split at h
      · cases h
      · split at h
        · split at h
          · cases h
          · split at h
            · cases h; rw [FromText]; exact ⟨by simp [StrictSorted], trivial⟩
            · obtain ⟨⟨m, r1⟩, h1, h2⟩ := bind_ok_inv h
              obtain ⟨o, rfl, rfl, o3, o4, o5⟩ := finishObj_inv cfg h2
              rw [FromText]
              refine ⟨o4, (madeM_iff _ _).2 fun x hx => ?_⟩
              have hl := (o5 x.1).symm.trans (Obj.lookup_of_mem o4 hx)
              exact (madeM_iff _ _).1 (ihM _ _ _ h1) _ (Obj.lastVal_mem hl)
        · split at h
          · split at h
            · cases h
            · split at h
              · cases h; rw [FromText]; trivial
              · obtain ⟨⟨m, r1⟩, h1, h2⟩ := bind_ok_inv h
                cases h2
                rw [FromText]
                exact ihI _ _ _ h1
          · split at h
            · obtain ⟨⟨b, r1⟩, h1, h2⟩ := bind_ok_inv h
              cases h2
              exact made_stringValue _ _
            · split at h
              · obtain ⟨t, h1, h2⟩ := bind_ok_inv h
                cases h2; simp [FromText]
              · split at h
                · obtain ⟨t, h1, h2⟩ := bind_ok_inv h
                  cases h2; simp [FromText]
                · split at h
                  · obtain ⟨t, h1, h2⟩ := bind_ok_inv h
                    cases h2; simp [FromText]
                  · split at h
                    · exact parseNumber_made h
                    · cases h
    · intro s m r h
      rw [parseMembers.eq_def] at h
      try dsimp only at h
      split at h
      · cases h
      · cases h
      · next f' q r0 hf =>
        cases hf
        split at h
        · obtain ⟨⟨k, r1⟩, h1, h⟩ := bind_ok_inv h
          dsimp only at h
          split at h
          · cases h
          · split at h
            · obtain ⟨⟨v, r3⟩, h3, h⟩ := bind_ok_inv h
              have hv := ihV _ _ _ h3
              dsimp only at h
              split at h
              · cases h
              · split at h
                · cases h; exact ⟨hv, trivial⟩
                · split at h
                  · obtain ⟨⟨m', r5⟩, h5, h⟩ := bind_ok_inv h
                    cases h
                    exact ⟨hv, ihM _ _ _ h5⟩
                  · cases h
            · cases h
        · cases h
    · intro s m r h
      rw [parseItems.eq_def] at h
      dsimp only at h
      obtain ⟨⟨v, r3⟩, h3, h⟩ := bind_ok_inv h
      have hv := ihV _ _ _ h3
      dsimp only at h
      split at h
      · cases h
      · split at h
        · cases h; exact ⟨hv, trivial⟩
        · split at h
          · obtain ⟨⟨m', r5⟩, h5, h⟩ := bind_ok_inv h
            cases h
            exact ⟨hv, ihI _ _ _ h5⟩
          · cases h

mutual
/-- No floating point number. -/
def NoDouble : JV → Prop
  | .num (.dbl _) => False
  | .arr l => NoDoubleL l
  | .obj l => NoDoubleM l
  | _ => True
/-- Items. -/
def NoDoubleL : List JV → Prop
  | [] => True
  | v :: l => NoDouble v ∧ NoDoubleL l
/-- Members. -/
def NoDoubleM : List (Bytes × JV) → Prop
  | [] => True
  | (_, v) :: l => NoDouble v ∧ NoDoubleM l
end

mutual
theorem made_trip (cfg : Cfg) (u8 : Bool) (f : Decimal → Bytes) : (v : JV) → FromText false v → NoDouble v → AllStr (StrOk u8) v →
    Printable u8 f v ∧ Tripable cfg v ∧ Plain v
  | .undef, h, _, _ => by rw [FromText] at h; exact h.elim
  | .null, _, _, _ => by simp [Printable, Tripable, Plain]
  | .bool _, _, _, _ => by simp [Printable, Tripable, Plain]
  | .num (.uint n), h, _, _ => by rw [FromText] at h; simp [Printable, Tripable, Plain, h.2]
  | .num (.int i), h, _, _ => by
    rw [FromText] at h
    refine ⟨by simp [Printable], ?_, ?_⟩
    · rw [Tripable]; omega
    · rw [Plain]; exact h.2.2
  | .num (.dbl _), _, h, _ => by rw [NoDouble] at h; exact h.elim
  | .num (.prec _ _), h, _, _ => by rw [FromText] at h; cases h.1
  | .num (.inf _), _, _, _ => by simp [Printable, Tripable, Plain]
  | .str s, h, _, hs => by
    rw [FromText] at h
    rw [AllStr] at hs
    exact ⟨by rw [Printable]; exact hs, by rw [Tripable]; exact h, by simp [Plain]⟩
  | .arr l, h, hd, hs => by
    rw [FromText] at h
    rw [NoDouble] at hd
    rw [AllStr] at hs
    obtain ⟨a, b, c⟩ := made_tripL cfg u8 f l h hd hs
    exact ⟨by rw [Printable]; exact a, by rw [Tripable]; exact b, by rw [Plain]; exact c⟩
  | .obj l, h, hd, hs => by
    rw [FromText] at h
    rw [NoDouble] at hd
    rw [AllStr] at hs
    obtain ⟨a, b, c⟩ := made_tripM cfg u8 f l h.2 hd hs
    exact ⟨by rw [Printable]; exact a, by rw [Tripable]; exact ⟨h.1, b⟩, by rw [Plain]; exact c⟩
theorem made_tripL (cfg : Cfg) (u8 : Bool) (f : Decimal → Bytes) : (l : List JV) → FromTextL false l → NoDoubleL l → AllStrL (StrOk u8) l →
    PrintableL u8 f l ∧ TripableL cfg l ∧ PlainL l
  | [], _, _, _ => ⟨trivial, trivial, trivial⟩
  | v :: l, h, hd, hs => by
    rw [FromTextL] at h
    rw [NoDoubleL] at hd
    rw [AllStrL] at hs
    obtain ⟨a, b, c⟩ := made_trip cfg u8 f v h.1 hd.1 hs.1
    obtain ⟨a', b', c'⟩ := made_tripL cfg u8 f l h.2 hd.2 hs.2
    exact ⟨⟨a, a'⟩, ⟨b, b'⟩, ⟨c, c'⟩⟩
theorem made_tripM (cfg : Cfg) (u8 : Bool) (f : Decimal → Bytes) : (l : List (Bytes × JV)) → FromTextM false l → NoDoubleM l → AllStrM (StrOk u8) l →
    PrintableM u8 f l ∧ TripableM cfg l ∧ PlainM l
  | [], _, _, _ => ⟨trivial, trivial, trivial⟩
  | (k, v) :: l, h, hd, hs => by
    rw [FromTextM] at h
    rw [NoDoubleM] at hd
    rw [AllStrM] at hs
    obtain ⟨a, b, c⟩ := made_trip cfg u8 f v h.1 hd.1 hs.2.1
    obtain ⟨a', b', c'⟩ := made_tripM cfg u8 f l h.2 hd.2 hs.2.2
    exact ⟨⟨hs.1, a, a'⟩, ⟨b, b'⟩, ⟨c, c'⟩⟩
end

mutual
theorem made_noMin (p : Bool) : (v : JV) → FromText p v → hasMin v = false
  | .undef, _ => by rw [hasMin.eq_def]
  | .null, _ => by rw [hasMin.eq_def]
  | .bool _, _ => by rw [hasMin.eq_def]
  | .num (.uint _), _ => by rw [hasMin.eq_def]
  | .num (.dbl _), _ => by rw [hasMin.eq_def]
  | .num (.inf _), _ => by rw [hasMin.eq_def]
  | .num (.prec _ _), _ => by rw [hasMin.eq_def]
  | .num (.int i), h => by
    rw [FromText] at h
    rw [hasMin]
    have : i ≠ -2 ^ 63 := by omega
    simpa using this
  | .str _, _ => by rw [hasMin.eq_def]
  | .arr l, h => by rw [FromText] at h; rw [hasMin]; exact made_noMinL p l h
  | .obj l, h => by rw [FromText] at h; rw [hasMin]; exact made_noMinM p l h.2
theorem made_noMinL (p : Bool) : (l : List JV) → FromTextL p l → hasMinL l = false
  | [], _ => rfl
  | v :: l, h => by rw [FromTextL] at h; rw [hasMinL, made_noMin p v h.1, made_noMinL p l h.2]; rfl
theorem made_noMinM (p : Bool) : (l : List (Bytes × JV)) → FromTextM p l → hasMinM l = false
  | [], _ => rfl
  | (k, v) :: l, h => by rw [FromTextM] at h; rw [hasMinM, made_noMin p v h.1, made_noMinM p l h.2]; rfl
end

/-- **C174, what was read can be written.** Whatever text a value was read from, by whatever parser, writing it is defined: the one integer
whose printing overflows (C01) is never read. -/
theorem C174_written (cfg : Cfg) (s : Bytes) (v : JV) (r : Bytes) (h : parse cfg s = .ok (v, r)) (u8 : Bool) (f : Decimal → Bytes) :
    ∃ t, stringify u8 f v = .ok t := by
  refine ⟨ser u8 f v, ?_⟩
  rw [stringify, made_noMin _ v ((parse_made cfg _).1 _ _ _ h)]
  rfl

/-- **C174.** A value read from any text, in which there is no floating point number and all strings and keys are well-formed (for escaped
output also without characters above U+FFFF), is written and read again as the very same value, and then written as the same text.
Missing: floating point numbers (C107, C111), numbers kept as text (C10), other strings (`C174_violation`). -/
theorem C174_again_partial (cfg : Cfg) (htl : ∀ n < 2 ^ 64, cfg.tooLong n = false) (hp : cfg.precise = false) (s : Bytes) (v : JV) (r : Bytes)
    (h : parse cfg s = .ok (v, r)) (hd : NoDouble v) (u8 : Bool) (hs : AllStr (StrOk u8) v) (f : Decimal → Bytes) :
    ∃ t, stringify u8 f v = .ok t ∧ parse cfg t = .ok (v, []) := by
  have hm := (parse_made cfg _).1 _ _ _ h
  rw [hp] at hm
  obtain ⟨a, b, c⟩ := made_trip cfg u8 f v hm hd hs
  obtain ⟨v', h1, h2⟩ := Trip.trip u8 f cfg htl v a b [] [] ws_nil (by intro _ _ h; cases h)
  rw [List.nil_append, List.append_nil] at h1
  refine ⟨_, by rw [stringify, tripable_noMin cfg v b]; rfl, ?_⟩
  rw [h1, Trip.reads_eq cfg hp h2 c]

mutual
theorem from_trip (cfg : Cfg) (hp : cfg.precise = true) : (v : JV) → FromText true v → Tripable cfg v
  | .undef, h => by rw [FromText] at h; exact h.elim
  | .null, _ => by simp [Tripable]
  | .bool _, _ => by simp [Tripable]
  | .num (.uint n), h => by rw [FromText] at h; cases h.1
  | .num (.int i), h => by rw [FromText] at h; cases h.1
  | .num (.dbl _), h => by rw [FromText] at h; cases h
  | .num (.prec _ _), _ => by rw [Tripable, hp]; intro h; cases h
  | .num (.inf _), _ => by simp [Tripable]
  | .str s, h => by rw [FromText] at h; rw [Tripable]; exact h
  | .arr l, h => by rw [FromText] at h; rw [Tripable]; exact from_tripL cfg hp l h
  | .obj l, h => by rw [FromText] at h; rw [Tripable]; exact ⟨h.1, from_tripM cfg hp l h.2⟩
theorem from_tripL (cfg : Cfg) (hp : cfg.precise = true) : (l : List JV) → FromTextL true l → TripableL cfg l
  | [], _ => trivial
  | v :: l, h => by rw [FromTextL] at h; exact ⟨from_trip cfg hp v h.1, from_tripL cfg hp l h.2⟩
theorem from_tripM (cfg : Cfg) (hp : cfg.precise = true) : (l : List (Bytes × JV)) → FromTextM true l → TripableM cfg l
  | [], _ => trivial
  | (k, v) :: l, h => by rw [FromTextM] at h; exact ⟨from_trip cfg hp v h.1, from_tripM cfg hp l h.2⟩
end

mutual
/-- The same value up to what the numbers kept as text are classified as. -/
def SameTexts : JV → JV → Prop
  | .num (.prec t _), .num (.prec t' _) => t = t'
  | .arr l, .arr l' => SameTextsL l l'
  | .obj l, .obj l' => SameTextsM l l'
  | v, v' => v = v'
/-- Items. -/
def SameTextsL : List JV → List JV → Prop
  | [], [] => True
  | v :: l, v' :: l' => SameTexts v v' ∧ SameTextsL l l'
  | _, _ => False
/-- Members. -/
def SameTextsM : List (Bytes × JV) → List (Bytes × JV) → Prop
  | [], [] => True
  | (k, v) :: l, (k', v') :: l' => k = k' ∧ SameTexts v v' ∧ SameTextsM l l'
  | _, _ => False
end

mutual
theorem reads_same (cfg : Cfg) (hp : cfg.precise = true) : {v w : JV} → Reads cfg v w → FromText true v → SameTexts v w
  | _, _, .undef, h => by rw [FromText] at h; exact h.elim
  | _, _, .null, _ => by simp [SameTexts]
  | _, _, .bool, _ => by simp [SameTexts]
  | _, _, .uint h, _ => by rw [hp] at h; cases h
  | _, _, .nat h, _ => by rw [hp] at h; cases h
  | _, _, .neg h _, _ => by rw [hp] at h; cases h
  | _, _, .uintP _ _ _, h => by rw [FromText] at h; cases h.1
  | _, _, .natP _ _ _, h => by rw [FromText] at h; cases h.1
  | _, _, .negP _ _ _ _, h => by rw [FromText] at h; cases h.1
  | _, _, .inf, _ => by simp [SameTexts]
  | _, _, .prec h _ _, _ => by rw [hp] at h; cases h
  | _, _, .precP _, _ => by simp [SameTexts]
  | _, _, .str, _ => by simp [SameTexts]
  | _, _, .arr hl, h => by rw [FromText] at h; rw [SameTexts]; exact reads_sameL cfg hp hl h
  | _, _, .obj hl, h => by rw [FromText] at h; rw [SameTexts]; exact reads_sameM cfg hp hl h.2
theorem reads_sameL (cfg : Cfg) (hp : cfg.precise = true) : {v w : List JV} → ReadsL cfg v w → FromTextL true v → SameTextsL v w
  | _, _, .nil, _ => by simp [SameTextsL]
  | _, _, .cons hv hl, h => by
    rw [FromTextL] at h
    rw [SameTextsL]
    exact ⟨reads_same cfg hp hv h.1, reads_sameL cfg hp hl h.2⟩
theorem reads_sameM (cfg : Cfg) (hp : cfg.precise = true) : {v w : List (Bytes × JV)} → ReadsM cfg v w → FromTextM true v → SameTextsM v w
  | _, _, .nil, _ => by simp [SameTextsM]
  | _, _, .cons hv hl, h => by
    rw [FromTextM] at h
    rw [SameTextsM]
    exact ⟨rfl, reads_same cfg hp hv h.1, reads_sameM cfg hp hl h.2⟩
end

mutual
theorem same_ser (u8 : Bool) (f : Decimal → Bytes) : {v w : JV} → SameTexts v w → FromText true v → ser u8 f w = ser u8 f v
  | .num (.prec t _), w, h, _ => by
    cases w with
    | num n =>
      cases n with
      | prec t' _ => rw [SameTexts] at h; subst h; simp [ser, writeNum]
      | _ => simp [SameTexts] at h
    | _ => simp [SameTexts] at h
  | .arr l, w, h, hm => by
    cases w with
    | arr l' => rw [SameTexts] at h; rw [FromText] at hm; rw [ser, ser, same_serL u8 f h hm]
    | _ => simp [SameTexts] at h
  | .obj l, w, h, hm => by
    cases w with
    | obj l' => rw [SameTexts] at h; rw [FromText] at hm; rw [ser, ser, same_serM u8 f h hm.2]
    | _ => simp [SameTexts] at h
  | .undef, w, h, _ => by simp [SameTexts] at h; rw [← h]
  | .null, w, h, _ => by simp [SameTexts] at h; rw [← h]
  | .bool _, w, h, _ => by simp [SameTexts] at h; rw [← h]
  | .str _, w, h, _ => by simp [SameTexts] at h; rw [← h]
  | .num (.uint _), w, h, _ => by simp [SameTexts] at h; rw [← h]
  | .num (.int _), w, h, _ => by simp [SameTexts] at h; rw [← h]
  | .num (.dbl _), w, h, _ => by simp [SameTexts] at h; rw [← h]
  | .num (.inf _), w, h, _ => by simp [SameTexts] at h; rw [← h]
theorem same_serL (u8 : Bool) (f : Decimal → Bytes) : {l m : List JV} → SameTextsL l m → FromTextL true l →
    serItems u8 f m = serItems u8 f l
  | [], m, h, _ => by cases m with
    | nil => rfl
    | cons => simp [SameTextsL] at h
  | v :: l, m, h, hm => by
    cases m with
    | nil => simp [SameTextsL] at h
    | cons v' m =>
      rw [SameTextsL] at h
      rw [FromTextL] at hm
      have e := same_ser u8 f h.1 hm.1
      have el := same_serL u8 f h.2 hm.2
      cases l with
      | nil => cases m with
        | nil => simp only [serItems, e]
        | cons => simp [SameTextsL] at h
      | cons => cases m with
        | nil => simp [SameTextsL] at h
        | cons => simp only [serItems, e, el]
theorem same_serM (u8 : Bool) (f : Decimal → Bytes) : {l m : List (Bytes × JV)} → SameTextsM l m → FromTextM true l →
    serMembers u8 f m = serMembers u8 f l
  | [], m, h, _ => by cases m with
    | nil => rfl
    | cons => simp [SameTextsM] at h
  | (k, v) :: l, m, h, hm => by
    cases m with
    | nil => simp [SameTextsM] at h
    | cons kv m =>
      obtain ⟨k', v'⟩ := kv
      rw [SameTextsM] at h
      rw [FromTextM] at hm
      obtain ⟨hk, hv, hl⟩ := h
      subst hk
      have e := same_ser u8 f hv hm.1
      have el := same_serM u8 f hl hm.2
      cases l with
      | nil => cases m with
        | nil => simp only [serMembers, e]
        | cons => simp [SameTextsM] at hl
      | cons => cases m with
        | nil => simp [SameTextsM] at hl
        | cons => simp only [serMembers, e, el]
end

/-- **C174, numbers kept as text.** With numbers kept as text, a value read from any text, whose strings are well-formed and whose numbers
are JSON numbers, is written and read again as the same value, every number with the same text, and then written as the same text again. Missing: numbers written with liberties
(`+1`, `01`) and other strings. -/
theorem C174_precise_partial (cfg : Cfg) (htl : ∀ n < 2 ^ 64, cfg.tooLong n = false) (hp : cfg.precise = true) (s : Bytes) (v : JV) (r : Bytes)
    (h : parse cfg s = .ok (v, r)) (u8 : Bool) (f : Decimal → Bytes) (hv : Printable u8 f v) :
    ∃ t v', stringify u8 f v = .ok t ∧ parse cfg t = .ok (v', []) ∧ SameTexts v v' ∧ stringify u8 f v' = .ok t := by
  have hm := (parse_made cfg _).1 _ _ _ h
  rw [hp] at hm
  have b := from_trip cfg hp v hm
  obtain ⟨v', h1, h2⟩ := Trip.trip u8 f cfg htl v hv b [] [] ws_nil (by intro _ _ h; cases h)
  rw [List.nil_append, List.append_nil] at h1
  refine ⟨_, v', by rw [stringify, tripable_noMin cfg v b]; rfl, h1, reads_same cfg hp h2 hm, ?_⟩
  rw [stringify, made_noMin _ v' ((parse_made cfg _).1 _ _ _ h1), same_ser u8 f (reads_same cfg hp h2 hm) hm]
  rfl

example : ∃ v, parse { precise := true } (ascii "[1.50, -0 ,{\"a\":12e3}]") = .ok (v, []) ∧
    v = .arr [.num (.prec (ascii "1.50") .dbl), .num (.prec (ascii "-0") (.sint 0)), .obj [(ascii "a", .num (.prec (ascii "12e3") .dbl))]] ∧
    Printable false (fun _ => []) v := by
  refine ⟨_, by decide +kernel, rfl, ?_⟩
  simp only [Printable, PrintableL, PrintableM]
  refine ⟨⟨⟨false, ascii "1", some (ascii "50"), none⟩, ⟨by decide, by decide, by decide⟩, by decide⟩,
    ⟨⟨true, ascii "0", none, none⟩, ⟨by decide, by decide, by decide⟩, by decide⟩,
    ⟨⟨.one (by decide) .nil, Or.inr (by decide)⟩,
      ⟨⟨false, ascii "12", none, some (0x65, [], ascii "3")⟩, ⟨by decide, by decide, by decide⟩, by decide⟩, trivial⟩, trivial⟩

example : ∃ v, parse {} (ascii " { \"b\" : [1, -2,true] , \"a\":\"\\u00e9x\" , \"\":{}}") = .ok (v, []) ∧
    v = .obj [([], .obj []), (ascii "a", .str [0xC3, 0xA9, 0x78]), (ascii "b", .arr [.num (.uint 1), .num (.int (-2)), .bool true])] ∧
    NoDouble v := by
  refine ⟨_, by decide +kernel, rfl, by simp [NoDouble, NoDoubleL, NoDoubleM]⟩

/-- **C174 does not hold for a byte that begins no character**: the text `"þA"` of another code page (bytes 0xFE 0x41) is read as the string
of these bytes; it is written as U+00FE and `A`, and that is read as another string. -/
theorem C174_violation : parse {} [0x22, 0xFE, 0x41, 0x22] = .ok (.str [0xFE, 0x41], []) ∧
    stringify true (fun _ => []) (.str [0xFE, 0x41]) = .ok [0x22, 0xC3, 0xBE, 0x41, 0x22] ∧
    parse {} [0x22, 0xC3, 0xBE, 0x41, 0x22] = .ok (.str [0xC3, 0xBE, 0x41], []) := by decide +kernel

/-- **C174 does not hold for escaped output of characters above U+FFFF.** -/
theorem C174_violation_astral : parse {} [0x22, 0xF0, 0x9F, 0x98, 0x80, 0x22] = .ok (.str [0xF0, 0x9F, 0x98, 0x80], []) ∧
    stringify false (fun _ => []) (.str [0xF0, 0x9F, 0x98, 0x80]) = .ok (ascii "\"\\uF600\"") ∧
    parse {} (ascii "\"\\uF600\"") = .ok (.str [0xEF, 0x98, 0x80], []) := by decide +kernel

end Imt.Props
