import Verif.Props.NumText
import Verif.Props.Stable

/-!
# A document is read back when its leaves are (C176)
-/

namespace Imt.Props
open Imt Imt.Parser Imt.Spec Imt.Ser

mutual
/-- Every number and string of the tree, written alone before anything that does not continue a number, is read back; so is every key;
the members are in order (as in every object the library makes); nothing is undefined. -/
def LeavesBack (cfg : Cfg) (u8 : Bool) (f : Decimal → Bytes) : JV → Prop
  | .undef => False
  | .null => True
  | .bool _ => True
  | .num n => ∀ rest, StopNum rest → parse cfg (ser u8 f (.num n) ++ rest) = .ok (.num n, rest)
  | .str s => ∀ rest, StopNum rest → parse cfg (ser u8 f (.str s) ++ rest) = .ok (.str s, rest)
  | .arr l => LeavesBackL cfg u8 f l
  | .obj l => StrictSorted l ∧ LeavesBackM cfg u8 f l
/-- Items. -/
def LeavesBackL (cfg : Cfg) (u8 : Bool) (f : Decimal → Bytes) : List JV → Prop
  | [] => True
  | v :: l => LeavesBack cfg u8 f v ∧ LeavesBackL cfg u8 f l
/-- Members. -/
def LeavesBackM (cfg : Cfg) (u8 : Bool) (f : Decimal → Bytes) : List (Bytes × JV) → Prop
  | [] => True
  | (k, v) :: l => (∀ rest, readStr cfg Utf8.Dec.init (body u8 Utf8.Dec.init k ++ 0x22 :: rest) = .ok (k, rest)) ∧
      LeavesBack cfg u8 f v ∧ LeavesBackM cfg u8 f l
end

theorem back_fuel {cfg : Cfg} {s : Bytes} {x : JV × Bytes} (h : parse cfg s = .ok x) : ∃ F, ∀ g, F ≤ g → parseV cfg g s = .ok x := by
  unfold parse at h
  refine ⟨2 * s.length + 1, fun g hg => ?_⟩
  obtain ⟨k, rfl⟩ : ∃ k, g = 2 * s.length + 1 + k := ⟨g - (2 * s.length + 1), by omega⟩
  rw [parseV_mono cfg s _ k (by rw [h]; simp), h]

/-- Where a value is read there is something other than a closing bracket. -/
theorem back_head {cfg : Cfg} {g : Nat} {s : Bytes} {x : JV × Bytes} (h : parseV cfg g s = .ok x) :
    ∃ c r, skipWs s = c :: r ∧ c ≠ 0x5D := by
  cases g with
  | zero => unfold parseV at h; cases h
  | succ g =>
    rw [parseV.eq_def] at h
    dsimp only at h
    split at h
    · cases h
    · next c r he =>
      refine ⟨c, r, he, ?_⟩
      rintro rfl
      rw [if_neg (by decide), if_neg (by decide), if_neg (by decide), if_neg (by decide), if_neg (by decide), if_neg (by decide),
        if_neg (by decide)] at h
      cases h

theorem items_skip (cfg : Cfg) (g : Nat) (s : Bytes) : parseItems cfg g (skipWs s) = parseItems cfg g s := by
  cases g with
  | zero => unfold parseItems; rfl
  | succ g =>
    rw [parseItems.eq_def, parseItems.eq_def cfg (g + 1) s]
    dsimp only
    rw [parseV_skip]

theorem stop_sep {c : Nat} (h : isDigit c = false ∧ c ≠ 0x2E ∧ c ≠ 0x65 ∧ c ≠ 0x45) (r : Bytes) : StopNum (c :: r) := by
  intro d x e
  cases e
  exact h

mutual
theorem val_back (cfg : Cfg) (u8 : Bool) (f : Decimal → Bytes) : (v : JV) → LeavesBack cfg u8 f v → ∀ rest, StopNum rest →
    ∃ F, ∀ g, F ≤ g → parseV cfg g (ser u8 f v ++ rest) = .ok (v, rest)
  | .undef, h => by rw [LeavesBack] at h; exact h.elim
  | .null, _ => by
    intro rest _
    obtain ⟨F, hF⟩ := (pv_kw cfg).1.2 ⟨by simp [NumsFit], by simp [DupFree]⟩
    exact ⟨F, fun g hg => by rw [ser]; exact hF g hg rest (by rintro ⟨n, hn⟩; cases hn)⟩
  | .bool b, _ => by
    intro rest _
    cases b with
    | true =>
      obtain ⟨F, hF⟩ := (pv_kw cfg).2.1.2 ⟨by simp [NumsFit], by simp [DupFree]⟩
      exact ⟨F, fun g hg => by rw [ser]; exact hF g hg rest (by rintro ⟨n, hn⟩; cases hn)⟩
    | false =>
      obtain ⟨F, hF⟩ := (pv_kw cfg).2.2.2 ⟨by simp [NumsFit], by simp [DupFree]⟩
      exact ⟨F, fun g hg => by rw [ser]; exact hF g hg rest (by rintro ⟨n, hn⟩; cases hn)⟩
  | .num n, h => by
    intro rest hr
    rw [LeavesBack] at h
    exact back_fuel (h rest hr)
  | .str s, h => by
    intro rest hr
    rw [LeavesBack] at h
    exact back_fuel (h rest hr)
  | .arr [], _ => by
    intro rest _
    refine ⟨1, fun g hg => ?_⟩
    obtain ⟨g, rfl⟩ : ∃ k, g = k + 1 := ⟨g - 1, by omega⟩
    rw [ser, serItems, List.nil_append, List.cons_append, parseV_head _ _ _ _ (by decide), if_neg (by decide), if_pos rfl,
      List.singleton_append, skipWs_head (by decide)]
    dsimp only
    rw [if_pos rfl]
  | .arr (v :: l), h => by
    intro rest _
    rw [LeavesBack] at h
    obtain ⟨F, hF⟩ := items_back cfg u8 f (v :: l) (by simp) h rest
    refine ⟨F + 1, fun g hg => ?_⟩
    obtain ⟨g, rfl⟩ : ∃ k, g = k + 1 := ⟨g - 1, by omega⟩
    have hi := hF g (by omega)
    have e : ser u8 f (.arr (v :: l)) ++ rest = 0x5B :: (serItems u8 f (v :: l) ++ 0x5D :: rest) := by simp [ser]
    rw [e, parseV_head _ _ _ _ (by decide), if_neg (by decide), if_pos rfl]
    have hh : ∃ c r, skipWs (serItems u8 f (v :: l) ++ 0x5D :: rest) = c :: r ∧ c ≠ 0x5D := by
      cases g with
      | zero => unfold parseItems at hi; cases hi
      | succ g =>
        rw [parseItems.eq_def] at hi
        dsimp only at hi
        obtain ⟨x, hx, -⟩ := bind_ok_inv hi
        exact back_head hx
    obtain ⟨c, r, hc, hne⟩ := hh
    rw [← items_skip, hc] at hi
    rw [hc]
    dsimp only
    rw [if_neg hne, hi]
    rfl
  | .obj [], _ => by
    intro rest _
    refine ⟨1, fun g hg => ?_⟩
    obtain ⟨g, rfl⟩ : ∃ k, g = k + 1 := ⟨g - 1, by omega⟩
    rw [ser, serMembers, List.nil_append, List.cons_append, parseV_head _ _ _ _ (by decide), if_pos rfl,
      List.singleton_append, skipWs_head (by decide)]
    dsimp only
    rw [if_pos rfl]
  | .obj ((k, v) :: l), h => by
    intro rest _
    rw [LeavesBack] at h
    obtain ⟨F, hF⟩ := members_back cfg u8 f ((k, v) :: l) (by simp) h.2 rest
    refine ⟨F + 1, fun g hg => ?_⟩
    obtain ⟨g, rfl⟩ : ∃ k, g = k + 1 := ⟨g - 1, by omega⟩
    have hi := hF g (by omega)
    have e : ser u8 f (.obj ((k, v) :: l)) ++ rest = 0x7B :: (serMembers u8 f ((k, v) :: l) ++ 0x7D :: rest) := by simp [ser]
    obtain ⟨y, hy⟩ : ∃ y, serMembers u8 f ((k, v) :: l) ++ 0x7D :: rest = 0x22 :: y := by
      cases l <;> simp [serMembers, writeString]
    rw [e, parseV_head _ _ _ _ (by decide), if_pos rfl]
    rw [hy] at hi ⊢
    rw [skipWs_head (by decide)]
    dsimp only
    rw [if_neg (by decide), hi]
    change finishObj cfg ((k, v) :: l) rest = _
    unfold finishObj
    dsimp only
    rw [Trip.mkObject_id _ h.1, if_neg (by simp)]
theorem items_back (cfg : Cfg) (u8 : Bool) (f : Decimal → Bytes) : (l : List JV) → l ≠ [] → LeavesBackL cfg u8 f l → ∀ rest,
    ∃ F, ∀ g, F ≤ g → parseItems cfg g (serItems u8 f l ++ 0x5D :: rest) = .ok (l, rest)
  | [], h => absurd rfl h
  | [v], _ => by
    intro h rest
    rw [LeavesBackL] at h
    obtain ⟨F, hF⟩ := val_back cfg u8 f v h.1 (0x5D :: rest) (stop_sep (by decide) rest)
    refine ⟨F + 1, fun g hg => ?_⟩
    obtain ⟨g, rfl⟩ : ∃ k, g = k + 1 := ⟨g - 1, by omega⟩
    rw [parseItems.eq_def]
    dsimp only
    rw [serItems, hF g (by omega)]
    simp [skipWs_head (show isSpace 0x5D = false by decide)]
  | v :: w :: l, _ => by
    intro h rest
    rw [LeavesBackL] at h
    obtain ⟨F2, hF2⟩ := items_back cfg u8 f (w :: l) (by simp) h.2 rest
    obtain ⟨F, hF⟩ := val_back cfg u8 f v h.1 (0x2C :: (serItems u8 f (w :: l) ++ 0x5D :: rest)) (stop_sep (by decide) _)
    refine ⟨F + F2 + 1, fun g hg => ?_⟩
    obtain ⟨g, rfl⟩ : ∃ k, g = k + 1 := ⟨g - 1, by omega⟩
    have e : serItems u8 f (v :: w :: l) ++ 0x5D :: rest = ser u8 f v ++ (0x2C :: (serItems u8 f (w :: l) ++ 0x5D :: rest)) := by
      simp [serItems]
    rw [parseItems.eq_def]
    dsimp only
    rw [e, hF g (by omega)]
    simp [skipWs_head (show isSpace 0x2C = false by decide), hF2 g (by omega)]
theorem members_back (cfg : Cfg) (u8 : Bool) (f : Decimal → Bytes) : (l : List (Bytes × JV)) → l ≠ [] → LeavesBackM cfg u8 f l → ∀ rest,
    ∃ F, ∀ g, F ≤ g → parseMembers cfg g (serMembers u8 f l ++ 0x7D :: rest) = .ok (l, rest)
  | [], h => absurd rfl h
  | [(k, v)], _ => by
    intro h rest
    rw [LeavesBackM] at h
    obtain ⟨F, hF⟩ := val_back cfg u8 f v h.2.1 (0x7D :: rest) (stop_sep (by decide) rest)
    refine ⟨F + 1, fun g hg => ?_⟩
    obtain ⟨g, rfl⟩ : ∃ k, g = k + 1 := ⟨g - 1, by omega⟩
    have e : serMembers u8 f [(k, v)] ++ 0x7D :: rest =
        0x22 :: (body u8 Utf8.Dec.init k ++ 0x22 :: (0x3A :: (ser u8 f v ++ 0x7D :: rest))) := by simp [serMembers, writeString]
    rw [e, parseMembers.eq_def]
    dsimp only
    rw [if_pos rfl, h.1]
    simp [skipWs_head (show isSpace 0x3A = false by decide), skipWs_head (show isSpace 0x7D = false by decide), hF g (by omega)]
  | (k, v) :: m :: l, _ => by
    intro h rest
    rw [LeavesBackM] at h
    obtain ⟨F2, hF2⟩ := members_back cfg u8 f (m :: l) (by simp) h.2.2 rest
    obtain ⟨F, hF⟩ := val_back cfg u8 f v h.2.1 (0x2C :: (serMembers u8 f (m :: l) ++ 0x7D :: rest)) (stop_sep (by decide) _)
    refine ⟨F + F2 + 1, fun g hg => ?_⟩
    obtain ⟨g, rfl⟩ : ∃ k, g = k + 1 := ⟨g - 1, by omega⟩
    have e : serMembers u8 f ((k, v) :: m :: l) ++ 0x7D :: rest =
        0x22 :: (body u8 Utf8.Dec.init k ++ 0x22 :: (0x3A :: (ser u8 f v ++ 0x2C :: (serMembers u8 f (m :: l) ++ 0x7D :: rest)))) := by
      simp [serMembers, writeString]
    obtain ⟨y, hy⟩ : ∃ y, serMembers u8 f (m :: l) ++ 0x7D :: rest = 0x22 :: y := by
      obtain ⟨k', v'⟩ := m
      cases l <;> simp [serMembers, writeString]
    have hm := hF2 g (by omega)
    have hv := hF g (by omega)
    rw [e, parseMembers.eq_def]
    dsimp only
    rw [if_pos rfl, h.1]
    rw [hy] at hm hv ⊢
    simp [skipWs_head (show isSpace 0x3A = false by decide), skipWs_head (show isSpace 0x2C = false by decide),
      skipWs_head (show isSpace 0x22 = false by decide), hv, hm]
end

/-- **C176.** A document is read back as the very same value as soon as each of its leaves is: whatever the printer of doubles, whatever
the bytes of strings and keys, in both modes, if every number, string and key written alone is read back, the whole document is, and
nothing of what follows is taken. No interplay of neighbours, nesting, separators or key order can lose anything more. -/
theorem C176_leaves (cfg : Cfg) (u8 : Bool) (f : Decimal → Bytes) (v : JV) (h : LeavesBack cfg u8 f v) (w : Bytes) (hw : Ws w)
    (rest : Bytes) (hr : StopNum rest) : parse cfg (w ++ (ser u8 f v ++ rest)) = .ok (v, rest) := by
  obtain ⟨F, hF⟩ := val_back cfg u8 f v h rest hr
  refine parse_of_fuel cfg _ F _ ?_ (by simp)
  rw [parseV_ws _ _ _ _ hw, hF F (Nat.le_refl _)]

theorem str_leaf (cfg : Cfg) (u8 : Bool) (f : Decimal → Bytes) (s : Bytes) (h : StrOk u8 s) (hi : s ≠ infSign ∧ s ≠ 0x2D :: infSign) :
    LeavesBack cfg u8 f (.str s) := by
  rw [LeavesBack]
  intro rest hr
  have hp := parse_grammar cfg (strVal u8 s h) ⟨by simp [NumsFit], by simp [DupFree]⟩ [] rest ws_nil hr
  rw [List.nil_append] at hp
  unfold infSign at hi
  rw [ser, hp, interpV, stringValue, if_neg hi.1, if_neg hi.2]

theorem inf_leaf (cfg : Cfg) (u8 : Bool) (f : Decimal → Bytes) (b : Bool) : LeavesBack cfg u8 f (.num (.inf b)) := by
  rw [LeavesBack]
  intro rest hr
  cases b with
  | false =>
    have hp := parse_grammar cfg (strVal u8 _ (infSign_ok u8).1) ⟨by simp [NumsFit], by simp [DupFree]⟩ [] rest ws_nil hr
    rw [List.nil_append] at hp
    exact hp
  | true =>
    have hp := parse_grammar cfg (strVal u8 _ (infSign_ok u8).2) ⟨by simp [NumsFit], by simp [DupFree]⟩ [] rest ws_nil hr
    rw [List.nil_append] at hp
    exact hp

mutual
theorem from_leaves (cfg : Cfg) (hp : cfg.precise = true) (u8 : Bool) (f : Decimal → Bytes) : (v : JV) → FromText true v →
    AllStr (StrOk u8) v → LeavesBack cfg u8 f v
  | .undef, h, _ => by rw [FromText] at h; exact h.elim
  | .null, _, _ => by simp [LeavesBack]
  | .bool _, _, _ => by simp [LeavesBack]
  | .num (.uint n), h, _ => by rw [FromText] at h; cases h.1
  | .num (.int i), h, _ => by rw [FromText] at h; cases h.1
  | .num (.dbl _), h, _ => by rw [FromText] at h; cases h
  | .num (.prec t c), h, _ => by
    rw [FromText] at h
    obtain ⟨-, s, fl, r, h1, h2⟩ := h
    rw [LeavesBack]
    intro rest hr
    have hb := prec_back cfg hp h1 [] ws_nil rest hr
    rw [h2, List.nil_append] at hb
    rw [ser, writeNum]
    exact hb
  | .num (.inf b), _, _ => inf_leaf cfg u8 f b
  | .str s, h, hs => by
    rw [FromText] at h
    rw [AllStr] at hs
    exact str_leaf cfg u8 f s hs h
  | .arr l, h, hs => by
    rw [FromText] at h
    rw [AllStr] at hs
    rw [LeavesBack]
    exact from_leavesL cfg hp u8 f l h hs
  | .obj l, h, hs => by
    rw [FromText] at h
    rw [AllStr] at hs
    rw [LeavesBack]
    exact ⟨h.1, from_leavesM cfg hp u8 f l h.2 hs⟩
theorem from_leavesL (cfg : Cfg) (hp : cfg.precise = true) (u8 : Bool) (f : Decimal → Bytes) : (l : List JV) → FromTextL true l →
    AllStrL (StrOk u8) l → LeavesBackL cfg u8 f l
  | [], _, _ => trivial
  | v :: l, h, hs => by
    rw [FromTextL] at h
    rw [AllStrL] at hs
    exact ⟨from_leaves cfg hp u8 f v h.1 hs.1, from_leavesL cfg hp u8 f l h.2 hs.2⟩
theorem from_leavesM (cfg : Cfg) (hp : cfg.precise = true) (u8 : Bool) (f : Decimal → Bytes) : (l : List (Bytes × JV)) →
    FromTextM true l → AllStrM (StrOk u8) l → LeavesBackM cfg u8 f l
  | [], _, _ => trivial
  | (k, v) :: l, h, hs => by
    rw [FromTextM] at h
    rw [AllStrM] at hs
    exact ⟨fun rest => readStr_body cfg (body_strBody u8 k hs.1 _) _ rest, from_leaves cfg hp u8 f v h.1 hs.2.1,
      from_leavesM cfg hp u8 f l h.2 hs.2.2⟩
end

/-- **C176, numbers kept as text.** With numbers kept as text, a value read from any text, JSON or not, with numbers of any form the reader
accepts (`+1`, `007`, `1.`), in which all strings and keys are well-formed, is written and read again as the very same value, including the
classification of every number. -/
theorem C176_precise (cfg : Cfg) (hp : cfg.precise = true) (s : Bytes) (v : JV) (r : Bytes) (h : parse cfg s = .ok (v, r)) (u8 : Bool)
    (hs : AllStr (StrOk u8) v) (f : Decimal → Bytes) : ∃ t, stringify u8 f v = .ok t ∧ parse cfg t = .ok (v, []) := by
  have hm := (parse_made cfg _).1 _ _ _ h
  refine ⟨ser u8 f v, by rw [stringify, made_noMin _ v hm]; rfl, ?_⟩
  rw [hp] at hm
  have hb := C176_leaves cfg u8 f v (from_leaves cfg hp u8 f v hm hs) [] ws_nil [] (by intro _ _ h; cases h)
  simpa using hb

example : ∃ v, parse { precise := true } (ascii " [ +1,{\"b\": 007 ,\"a\":1.}]") = .ok (v, []) ∧
    v = .arr [.num (.prec (ascii "+1") (.unat 1)), .obj [(ascii "a", .num (.prec (ascii "1.") .dbl)), (ascii "b", .num (.prec (ascii "007") (.unat 7)))]] ∧
    AllStr (StrOk false) v := by
  refine ⟨_, by decide +kernel, rfl, ?_⟩
  simp only [AllStr, AllStrL, AllStrM]
  exact ⟨trivial, ⟨⟨.one (by decide) .nil, Or.inr (by decide)⟩, trivial, ⟨.one (by decide) .nil, Or.inr (by decide)⟩, trivial, trivial⟩, trivial⟩

/-- The leaves of a concrete document. -/
example : LeavesBack {} true (fun _ => []) (.obj [(ascii "a", .arr [.null, .str (ascii "x")]), (ascii "b", .bool true)]) := by
  have w : StrOk true (ascii "a") ∧ StrOk true (ascii "b") ∧ StrOk true (ascii "x") :=
    ⟨⟨.one (by decide) .nil, Or.inl rfl⟩, ⟨.one (by decide) .nil, Or.inl rfl⟩, ⟨.one (by decide) .nil, Or.inl rfl⟩⟩
  rw [LeavesBack]
  refine ⟨by unfold StrictSorted; decide, fun rest => readStr_body _ (body_strBody true _ w.1 _) _ rest, ?_,
    fun rest => readStr_body _ (body_strBody true _ w.2.1 _) _ rest, ?_, trivial⟩
  · rw [LeavesBack, LeavesBackL, LeavesBackL]
    exact ⟨by simp [LeavesBack], str_leaf _ _ _ _ w.2.2 ⟨by decide, by decide⟩, trivial⟩
  · simp [LeavesBack]

end Imt.Props
