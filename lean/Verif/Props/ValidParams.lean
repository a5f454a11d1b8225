import Verif.Props.ValidRules
/-!
# C98: rules with parameters; C99: references to variables and emitted values
-/
namespace Imt.Props
open Imt Imt.Eq Imt.Valid Imt.VText

/-! ## C98 -/

/-- A string made during the validation. -/
def strV (a : Nat) (t : Bytes) : EV := .node a [] false (.str t false) []

/-- One of the rules from the position on accepts the value. -/
def OneFrom (acc : EV → EV → Bool) (rule : EV) (off : Nat) (v : EV) : Prop :=
  ∃ i r, off ≤ i ∧ (items rule)[i]? = some r ∧ acc v r = true

/-- **C98, sizes**: `minsize` and `maxsize` bound the number of items or of bytes; other values are accepted. -/
theorem C98_size (env : Valid.Env) (ev : Ev) (s rule : EV) (p : Valid.Path) (st : St) (n : Nat)
    (hn : n = env.uint (getVar env st.vars s (at' rule 1))) :
    (∃ b, evalToken env ev s rule (ascii "minsize") p st = (.ok b, st) ∧
      (b = true ↔ (s.sh = .arr → n ≤ s.kids.length) ∧ (∀ f, s.sh = .obj f → n ≤ s.kids.length) ∧ ∀ t f, s.sh = .str t f → n ≤ t.length)) ∧
    (∃ b, evalToken env ev s rule (ascii "maxsize") p st = (.ok b, st) ∧
      (b = true ↔ (s.sh = .arr → s.kids.length ≤ n) ∧ (∀ f, s.sh = .obj f → s.kids.length ≤ n) ∧ ∀ t f, s.sh = .str t f → t.length ≤ n)) := by
  subst hn
  constructor
  · refine ⟨checkMinSize s _, rfl, ?_⟩
    unfold checkMinSize items
    cases s.sh <;> simp
  · refine ⟨checkMaxSize s _, rfl, ?_⟩
    unfold checkMaxSize items
    cases s.sh <;> simp

theorem alts_new {ev : Ev} {acc : EV → EV → Bool} {rule v : EV} {off : Nat} {p : Valid.Path} {st st1 : St} {x : M EV}
    (hx : x st = (.ok v, st1)) (hv : st1.vars = st.vars)
    (h : EvIs ev acc st.vars [v] ((items rule).drop off)) :
    ∃ b st', (x >>= fun v => alternatives ev v rule off p) st = (.ok b, st') ∧ st'.vars = st.vars ∧ (b = true ↔ OneFrom acc rule off v) := by
  rw [← hv] at h
  obtain ⟨b, st', e, w, hb⟩ := C95_alternatives ev acc v rule off p st1 h
  exact ⟨b, st', by rw [bind_def, hx]; exact e, w.trans hv, hb⟩

/-- **C98, conversions**: `key`, `tostring` and `tonumber` apply the rules to the key, the text and the number of the subject. -/
theorem C98_convert (env : Valid.Env) (ev : Ev) (acc : EV → EV → Bool) (s rule : EV) (p : Valid.Path) (st : St) :
    (EvIs ev acc st.vars [strV st.next s.key] ((items rule).drop 1) →
      ∃ b st', evalToken env ev s rule (ascii "key") p st = (.ok b, st') ∧ st'.vars = st.vars ∧
        (b = true ↔ OneFrom acc rule 1 (strV st.next s.key))) ∧
    (EvIs ev acc st.vars [strV st.next (env.toStr s)] ((items rule).drop 1) →
      ∃ b st', evalToken env ev s rule (ascii "tostring") p st = (.ok b, st') ∧ st'.vars = st.vars ∧
        (b = true ↔ OneFrom acc rule 1 (strV st.next (env.toStr s)))) ∧
    (EvIs ev acc st.vars [.node st.next [] false (.num (env.toNum s)) []] ((items rule).drop 1) →
      ∃ b st', evalToken env ev s rule (ascii "tonumber") p st = (.ok b, st') ∧ st'.vars = st.vars ∧
        (b = true ↔ OneFrom acc rule 1 (.node st.next [] false (.num (env.toNum s)) []))) := by
  refine ⟨fun h => ?_, fun h => ?_, fun h => ?_⟩
  · exact alts_new (x := newStr s.key) (st1 := { st with next := st.next + 1 }) rfl rfl h
  · exact alts_new (x := newStr (env.toStr s)) (st1 := { st with next := st.next + 1 }) rfl rfl h
  · exact alts_new (x := newNum (env.toNum s)) (st1 := { st with next := st.next + 1 }) rfl rfl h

/-- **C98 does not hold for `tonumber`**: documented to reject what cannot be converted, it takes it as zero. -/
theorem C98_violation_tonumber :
    (evalRule venv undefV 3 (vs 20 "abc") (va 1 [vs 2 "tonumber", .node 3 [] false (.num .zero) []]) [] {}).1 = .ok true := by decide +kernel

/-- **C98, prefix**: a text prefix: the text of the subject starts with it, and when rules follow one of them accepts the rest. -/
theorem C98_prefix (env : Valid.Env) (ev : Ev) (acc : EV → EV → Bool) (s args x : EV) (p : Valid.Path) (st : St) (hx : x.sh ≠ .arr)
    (h : ∀ rest, getStr env s = getStr env x ++ rest → EvIs ev acc st.vars [strV st.next rest] ((items args).drop 2)) :
    ∃ b st', opPrefix env ev s args x p st = (.ok b, st') ∧ st'.vars = st.vars ∧
      (b = true ↔ ∃ rest, getStr env s = getStr env x ++ rest ∧
        ((at' args 2).sh = .undef ∨ OneFrom acc args 2 (strV st.next rest))) := by
  have hia : isArr x = false := by
    unfold isArr
    split
    · rename_i h; exact absurd h hx
    · rfl
  unfold opPrefix
  rw [hia, if_neg (by simp)]
  by_cases hp : (getStr env s).take (getStr env x).length = getStr env x
  · rw [if_neg (fun hh => hh hp)]
    have hsplit : getStr env s = getStr env x ++ (getStr env s).drop (getStr env x).length := by
      conv => lhs; rw [← List.take_append_drop (getStr env x).length (getStr env s), hp]
    by_cases hd : (at' args 2).sh = .undef
    · refine ⟨true, st, ?_, rfl, ?_⟩
      · rw [if_neg (by simp [defd, hd])]
        rfl
      · simp only [true_iff]
        exact ⟨_, hsplit, .inl hd⟩
    · rw [if_pos (by simp [defd, hd])]
      obtain ⟨b, st', e, w, hb⟩ := alts_new (x := newStr ((getStr env s).drop (getStr env x).length)) (p := p) (off := 2) (rule := args)
        (st := st) (st1 := { st with next := st.next + 1 }) rfl rfl (h _ hsplit)
      refine ⟨b, st', e, w, hb.trans ?_⟩
      constructor
      · exact fun hh => ⟨_, hsplit, .inr hh⟩
      · rintro ⟨rest, hr, hh⟩
        have : rest = (getStr env s).drop (getStr env x).length := by rw [hr]; simp
        rw [← this]
        exact hh.resolve_left hd
  · rw [if_pos hp]
    refine ⟨false, st, rfl, rfl, ?_⟩
    simp only [Bool.false_eq_true, false_iff]
    rintro ⟨rest, hr, -⟩
    exact hp (by rw [hr]; simp)

/-- **C98, suffix**: likewise for the end of the text. -/
theorem C98_suffix (env : Valid.Env) (ev : Ev) (acc : EV → EV → Bool) (s args x : EV) (p : Valid.Path) (st : St) (hx : x.sh ≠ .arr)
    (h : ∀ rest, getStr env s = rest ++ getStr env x → EvIs ev acc st.vars [strV st.next rest] ((items args).drop 2)) :
    ∃ b st', opSuffix env ev s args x p st = (.ok b, st') ∧ st'.vars = st.vars ∧
      (b = true ↔ ∃ rest, getStr env s = rest ++ getStr env x ∧
        ((items args).length ≤ 2 ∨ OneFrom acc args 2 (strV st.next rest))) := by
  have hia : isArr x = false := by
    unfold isArr
    split
    · rename_i h; exact absurd h hx
    · rfl
  unfold opSuffix
  rw [hia, if_neg (by simp)]
  by_cases hl : (getStr env s).length < (getStr env x).length
  · rw [if_pos hl]
    refine ⟨false, st, rfl, rfl, ?_⟩
    simp only [Bool.false_eq_true, false_iff]
    rintro ⟨rest, hr, -⟩
    rw [hr, List.length_append] at hl
    omega
  rw [if_neg hl]
  by_cases hp : (getStr env s).drop ((getStr env s).length - (getStr env x).length) = getStr env x
  · rw [if_neg (fun hh => hh hp)]
    have hsplit : getStr env s = (getStr env s).take ((getStr env s).length - (getStr env x).length) ++ getStr env x := by
      conv => lhs; rw [← List.take_append_drop ((getStr env s).length - (getStr env x).length) (getStr env s), hp]
    by_cases hd : (items args).length ≤ 2
    · refine ⟨true, st, ?_, rfl, ?_⟩
      · rw [if_neg (by omega)]
        rfl
      · simp only [true_iff]
        exact ⟨_, hsplit, .inl hd⟩
    · rw [if_pos (by omega)]
      obtain ⟨b, st', e, w, hb⟩ := alts_new (x := newStr ((getStr env s).take ((getStr env s).length - (getStr env x).length))) (p := p) (off := 2)
        (rule := args) (st := st) (st1 := { st with next := st.next + 1 }) rfl rfl (h _ hsplit)
      refine ⟨b, st', e, w, hb.trans ?_⟩
      constructor
      · exact fun hh => ⟨_, hsplit, .inr hh⟩
      · rintro ⟨rest, hr, hh⟩
        have : rest = (getStr env s).take ((getStr env s).length - (getStr env x).length) := by rw [hr]; simp
        rw [← this]
        exact hh.resolve_left hd
  · rw [if_pos hp]
    refine ⟨false, st, rfl, rfl, ?_⟩
    simp only [Bool.false_eq_true, false_iff]
    rintro ⟨rest, hr, -⟩
    exact hp (by rw [hr]; simp)

/-- **C98, parts**: an array prefix or suffix is compared with the part `splitAt` gives, the rules see the other part; `split`
applies one rule to each part. -/
theorem C98_parts (env : Valid.Env) (ev : Ev) (acc : EV → EV → Bool) (s args x : EV) (p : Valid.Path) (st : St) (hx : x.sh = .arr) (hk : x.kids.length < 2 ^ 31)
    (l r : EV) (hlr : env.splitAt s x.kids.length = (l, r)) (h : EvIs ev acc st.vars [r] ((items args).drop 2)) :
    ∃ b st', opPrefix env ev s args x p st = (.ok b, st') ∧ st'.vars = st.vars ∧
      (b = true ↔ opEq l x = true ∧ ((at' args 2).sh = .undef ∨ OneFrom acc args 2 r)) := by
  have hia : isArr x = true := by unfold isArr; rw [hx]
  have hit : items x = x.kids := by unfold items; rw [hx]
  have hi : toInt32 x.kids.length = x.kids.length := by
    unfold toInt32
    rw [Nat.mod_eq_of_lt (by omega), if_pos (by omega)]
  unfold opPrefix
  rw [hia, if_pos rfl, hit, hi, hlr]
  dsimp only
  cases he : opEq l x with
  | false => exact ⟨false, st, rfl, rfl, by simp⟩
  | true =>
    by_cases hd : (at' args 2).sh = .undef
    · refine ⟨true, st, ?_, rfl, by simp [hd]⟩
      rw [if_neg (by simp), if_neg (by simp [defd, hd])]
      rfl
    · obtain ⟨b, st', e, w, hb⟩ := C95_alternatives ev acc r args 2 p st h
      refine ⟨b, st', ?_, w, hb.trans ?_⟩
      · rw [if_neg (by simp), if_pos (by simp [defd, hd])]
        exact e
      · simp [hd, OneFrom]

theorem C98_parts_end (env : Valid.Env) (ev : Ev) (acc : EV → EV → Bool) (s args x : EV) (p : Valid.Path) (st : St) (hx : x.sh = .arr) (hk : x.kids.length < 2 ^ 31)
    (l r : EV) (hlr : env.splitAt s (-x.kids.length) = (l, r)) (h : EvIs ev acc st.vars [l] ((items args).drop 2)) :
    ∃ b st', opSuffix env ev s args x p st = (.ok b, st') ∧ st'.vars = st.vars ∧
      (b = true ↔ opEq r x = true ∧ ((at' args 2).sh = .undef ∨ OneFrom acc args 2 l)) := by
  have hia : isArr x = true := by unfold isArr; rw [hx]
  have hit : items x = x.kids := by unfold items; rw [hx]
  have hi : toInt32 x.kids.length = x.kids.length := by
    unfold toInt32
    rw [Nat.mod_eq_of_lt (by omega), if_pos (by omega)]
  unfold opSuffix
  rw [hia, if_pos rfl, hit, hi, hlr]
  dsimp only
  cases he : opEq r x with
  | false => exact ⟨false, st, rfl, rfl, by simp⟩
  | true =>
    by_cases hd : (at' args 2).sh = .undef
    · refine ⟨true, st, ?_, rfl, by simp [hd]⟩
      rw [if_neg (by simp), if_neg (by simp [defd, hd])]
      rfl
    · obtain ⟨b, st', e, w, hb⟩ := C95_alternatives ev acc l args 2 p st h
      refine ⟨b, st', ?_, w, hb.trans ?_⟩
      · rw [if_neg (by simp), if_pos (by simp [defd, hd])]
        exact e
      · simp [hd, OneFrom]

theorem C98_split (env : Valid.Env) (ev : Ev) (acc : EV → EV → Bool) (s rule : EV) (p : Valid.Path) (st : St) (n : Nat)
    (hn : n = env.uint (getVar env st.vars s (at' rule 1))) (hk : n < 2 ^ 31)
    (l r : EV) (hlr : env.splitAt s n = (l, r)) (h1 : EvIs ev acc st.vars [l] [at' rule 2]) (h2 : EvIs ev acc st.vars [r] [at' rule 3]) :
    ∃ b st', evalToken env ev s rule (ascii "split") p st = (.ok b, st') ∧ st'.vars = st.vars ∧
      (b = true ↔ acc l (at' rule 2) = true ∧ acc r (at' rule 3) = true) := by
  have hi : toInt32 n = n := by
    unfold toInt32
    rw [Nat.mod_eq_of_lt (by omega), if_pos (by omega)]
  have hstep : evalToken env ev s rule (ascii "split") p st = opSplit env ev s n (at' rule 2) (at' rule 3) p st := by rw [hn]; rfl
  rw [hstep]
  unfold opSplit
  rw [hi, hlr]
  obtain ⟨st1, e1, v1⟩ := h1 l (by simp) (at' rule 2) (by simp) p st rfl
  rw [bind_def, e1]
  cases ha : acc l (at' rule 2) with
  | false => exact ⟨false, st1, rfl, v1, by simp⟩
  | true =>
    obtain ⟨st2, e2, v2⟩ := h2 r (by simp) (at' rule 3) (by simp) p st1 v1
    exact ⟨_, st2, by simpa using e2, v2, by simp⟩

/-- **C98 does not hold for positions from 2^31 on**: the position is converted to `int`, so that it is taken modulo 2^32, and from 2^31 on
(below 2^32) as a negative position, which `splitAt` counts from the end (C36). -/
theorem C98_violation_split (env : Valid.Env) (ev : Ev) (acc : EV → EV → Bool) (s rule : EV) (p : Valid.Path) (st : St) (n : Nat)
    (hn : n = env.uint (getVar env st.vars s (at' rule 1)))
    (l r : EV) (hlr : env.splitAt s (if n % 2 ^ 32 < 2 ^ 31 then (n % 2 ^ 32 : Nat) else (n % 2 ^ 32 : Nat) - 2 ^ 32) = (l, r))
    (h1 : EvIs ev acc st.vars [l] [at' rule 2]) (h2 : EvIs ev acc st.vars [r] [at' rule 3]) :
    ∃ b st', evalToken env ev s rule (ascii "split") p st = (.ok b, st') ∧ st'.vars = st.vars ∧
      (b = true ↔ acc l (at' rule 2) = true ∧ acc r (at' rule 3) = true) := by
  have hi : toInt32 n = (if n % 2 ^ 32 < 2 ^ 31 then ((n % 2 ^ 32 : Nat) : Int) else ((n % 2 ^ 32 : Nat) : Int) - 2 ^ 32) := by
    unfold toInt32
    norm_num
  have hstep : evalToken env ev s rule (ascii "split") p st = opSplit env ev s n (at' rule 2) (at' rule 3) p st := by rw [hn]; rfl
  rw [hstep]
  unfold opSplit
  rw [hi, hlr]
  obtain ⟨st1, e1, v1⟩ := h1 l (by simp) (at' rule 2) (by simp) p st rfl
  rw [bind_def, e1]
  cases ha : acc l (at' rule 2) with
  | false => exact ⟨false, st1, rfl, v1, by simp⟩
  | true =>
    obtain ⟨st2, e2, v2⟩ := h2 r (by simp) (at' rule 3) (by simp) p st1 v1
    exact ⟨_, st2, by simpa using e2, v2, by simp⟩

/-- The subject `[1]` with `["split",2147483648,["maxsize",0],["minsize",1]]`: everything is on the right; one less, on the left. -/
example : let env := { venv with splitAt := fun v n => if n < 0 then (va 90 [], v) else (v, va 90 []) }
    (evalRule env undefV 4 (va 20 [vn 21 1])
      (va 1 [vs 2 "split", vn 3 2147483648, va 4 [vs 5 "maxsize", vn 6 0], va 7 [vs 8 "minsize", vn 9 1]]) [] {}).1 = .ok true ∧
    (evalRule env undefV 4 (va 20 [vn 21 1])
      (va 1 [vs 2 "split", vn 3 2147483647, va 4 [vs 5 "maxsize", vn 6 0], va 7 [vs 8 "minsize", vn 9 1]]) [] {}).1 = .ok false := by
  decide +kernel

/-- **C98, explode**: the rule decides the array of the parts of the text; the limit applies when it is not zero. -/
theorem C98_explode (env : Valid.Env) (ev : Ev) (acc : EV → EV → Bool) (s rule : EV) (p : Valid.Path) (st : St) (l : List Bytes)
    (hl : l = env.explode (getStr env s) (getStr env (getVar env st.vars s (at' rule 1)))
      (if (at' rule 3).sh = .undef ∨ 2 ^ 32 ∣ env.uint (at' rule 3) then none else some (env.uint (at' rule 3) % 2 ^ 32)))
    (h : ∀ kids, kids.map (fun k => (k.key, k.sh)) = l.map (fun t => ([], .str t false)) →
      EvIs ev acc st.vars [.node st.next [] false .arr kids] [at' rule 2]) :
    ∃ b st' kids, evalToken env ev s rule (ascii "explode") p st = (.ok b, st') ∧ st'.vars = st.vars ∧
      kids.map (fun k => (k.key, k.sh)) = l.map (fun t => ([], .str t false)) ∧
      b = acc (.node st.next [] false .arr kids) (at' rule 2) := by
  have hlim : (if defd (at' rule 3) ∧ env.uint (at' rule 3) % 4294967296 ≠ 0 then some (env.uint (at' rule 3) % 4294967296) else none)
      = (if (at' rule 3).sh = .undef ∨ 2 ^ 32 ∣ env.uint (at' rule 3) then none else some (env.uint (at' rule 3) % 2 ^ 32)) := by
    by_cases h1 : (at' rule 3).sh = .undef
    · rw [if_neg (by simp [defd, h1]), if_pos (.inl h1)]
    · by_cases h2 : 2 ^ 32 ∣ env.uint (at' rule 3)
      · rw [if_neg (by simp [Nat.dvd_iff_mod_eq_zero] at h2; simp [h2]), if_pos (.inr h2)]
      · have h3 : env.uint (at' rule 3) % 4294967296 ≠ 0 := by simpa [Nat.dvd_iff_mod_eq_zero] using h2
        rw [if_neg (not_or.2 ⟨h1, h2⟩), if_pos ⟨by simp [defd, h1], h3⟩]
        norm_num
  have hstep : evalToken env ev s rule (ascii "explode") p st =
      opExplode env ev s (getStr env (getVar env st.vars s (at' rule 1))) (at' rule 2) (at' rule 3) p st := rfl
  rw [hstep]
  unfold opExplode
  rw [hlim, ← hl, bind_def]
  simp only [newStrArr]
  have hk : (l.mapIdx fun i s => EV.node (st.next + 1 + i) [] false (.str s false) []).map (fun k => (k.key, k.sh))
      = l.map (fun t => (([] : Bytes), Sh.str t false)) := by
    apply List.ext_getElem <;> simp [EV.key, EV.sh]
  obtain ⟨st', e, w⟩ := h _ hk _ (List.mem_singleton.2 rfl) _ (List.mem_singleton.2 rfl) p { st with next := st.next + 1 + l.length } rfl
  exact ⟨_, st', _, e, w, hk, rfl⟩

/-- **C98, custom dates**: the format decides the text. -/
theorem C98_datetime (env : Valid.Env) (ev : Ev) (s rule : EV) (p : Valid.Path) (st : St) :
    evalToken env ev s rule (ascii "datetime") p st =
      (.ok (checkDateTimeGen (getStr env (getVar env st.vars s (at' rule 1))) (env.toStr s)), st) := rfl

/-- The item is neither a comment nor a sign of a range. -/
def PlainItem (v : EV) : Prop :=
  ∀ t f, v.sh = .str t f → t.head? ≠ some 35 ∧ t ≠ ascii "<" ∧ t ≠ ascii ">" ∧ t ≠ ascii "<=" ∧ t ≠ ascii ">="

theorem rangeItem_plain {v : EV} (h : PlainItem v) : rangeItem v = .rule := by
  unfold rangeItem
  split
  · rename_i name f hv
    obtain ⟨h1, h2, h3, h4, h5⟩ := h name f hv
    rw [if_neg]
    · unfold rangeTest
      rw [if_neg h2, if_neg h5, if_neg h3, if_neg h4]
    · intro hh
      cases name with
      | nil => simp at hh
      | cons c t => simp at hh; simp [hh] at h1
  · rfl

/-- A comment. -/
def IsComment (v : EV) : Prop := ∃ t f, v.sh = .str (35 :: t) f

/-- **C98, all**: `["all",r1,...]` accepts the subject iff all rules accept it; comments count for nothing. -/
theorem C98_all (env : Valid.Env) (ev : Ev) (acc : EV → EV → Bool) (s rule : EV) (token : Bytes) (p : Valid.Path) (st : St)
    (ht : token = ascii "all" ∨ token = ascii "^")
    (hp : ∀ v ∈ (items rule).drop 1, PlainItem v ∨ IsComment v)
    (h : EvIs ev acc st.vars [s] ((items rule).drop 1)) :
    ∃ b st', evalToken env ev s rule token p st = (.ok b, st') ∧ st'.vars = st.vars ∧
      (b = true ↔ ∀ i r, 1 ≤ i → (items rule)[i]? = some r → ¬ IsComment r → acc s r = true) := by
  have hstep : evalToken env ev s rule token p st = rangeLoop env ev s p ((items rule).drop 1) st := by
    rcases ht with rfl | rfl <;> rfl
  rw [hstep]
  have key : ∀ (l : List EV), (∀ v ∈ l, PlainItem v ∨ IsComment v) → EvIs ev acc st.vars [s] l → ∀ st1 : St, st1.vars = st.vars →
      ∃ b st', rangeLoop env ev s p l st1 = (.ok b, st') ∧ st'.vars = st.vars ∧
        (b = true ↔ ∀ r ∈ l, ¬ IsComment r → acc s r = true) := by
    intro l
    induction l with
    | nil => intro _ _ st1 h1; exact ⟨true, st1, by rw [rangeLoop]; rfl, h1, by simp⟩
    | cons v l ih =>
      intro hp h st1 h1
      by_cases hc : IsComment v
      · obtain ⟨t, f, hv⟩ := hc
        have : rangeItem v = .skip := by
          unfold rangeItem
          rw [hv]
          rfl
        obtain ⟨b, st', e, w, hb⟩ := ih (fun x hx => hp x (by simp [hx])) (fun x hx y hy => h x hx y (by simp [hy])) st1 h1
        refine ⟨b, st', ?_, w, ?_⟩
        · rw [rangeLoop.eq_def]
          dsimp only
          rw [this]
          exact e
        · rw [List.forall_mem_cons, hb]
          exact ⟨fun hh => ⟨fun hn => absurd ⟨t, f, hv⟩ hn, hh⟩, fun hh => hh.2⟩
      · have : rangeItem v = .rule := rangeItem_plain ((hp v (by simp)).resolve_right hc)
        obtain ⟨st2, e2, v2⟩ := h s (by simp) v (by simp) p st1 h1
        rw [rangeLoop.eq_def]
        dsimp only
        rw [this]
        dsimp only
        rw [bind_def, e2]
        cases ha : acc s v with
        | false =>
          refine ⟨false, st2, rfl, v2, ?_⟩
          rw [List.forall_mem_cons]
          simp [ha, hc]
        | true =>
          obtain ⟨b, st', e, w, hb⟩ := ih (fun x hx => hp x (by simp [hx])) (fun x hx y hy => h x hx y (by simp [hy])) st2 v2
          refine ⟨b, st', by simpa using e, w, ?_⟩
          rw [List.forall_mem_cons, hb]
          exact ⟨fun hh => ⟨fun _ => ha, hh⟩, fun hh => hh.2⟩
  obtain ⟨b, st', e, w, hb⟩ := key _ hp h st rfl
  refine ⟨b, st', e, w, hb.trans ?_⟩
  constructor
  · intro hh i r h1 h2 h3
    refine hh r (List.mem_iff_getElem?.2 ⟨i - 1, ?_⟩) h3
    rw [List.getElem?_drop, Nat.add_sub_cancel' h1]
    exact h2
  · intro hh r hr h3
    obtain ⟨i, hi⟩ := List.mem_iff_getElem?.1 hr
    rw [List.getElem?_drop] at hi
    exact hh (1 + i) r (by omega) hi h3

/-- **C98, literals**: null, booleans and numbers as rules accept the values equal to them; an undefined rule accepts nothing. -/
theorem C98_literal (env : Valid.Env) (df s rule : EV) (p : Valid.Path) (st : St) (n : Nat) :
    (rule.sh = .null ∨ (∃ b, rule.sh = .bool b) ∨ (∃ x, rule.sh = .num x) → evalRule env df (n + 1) s rule p st = (.ok (opEq s rule), st)) ∧
    (rule.sh = .undef → ∃ st', evalRule env df (n + 1) s rule p st = (.ok false, st') ∧ st'.vars = st.vars) := by
  constructor
  · intro h
    have hl : isLit rule = true := by
      unfold isLit
      rcases h with h | ⟨b, h⟩ | ⟨x, h⟩ <;> rw [h]
    show step env _ df s rule p st = _
    unfold step
    rw [hl]
    rfl
  · intro h
    have hl : isLit rule = false := by unfold isLit; rw [h]
    have hb : evalBody env (evalRule env df n) df s rule p st = (.ok false, st) := by
      unfold evalBody
      rw [h]
      rfl
    obtain ⟨st', e, v, -⟩ := step_body hl hb
    exact ⟨st', e, v⟩

/-- **C98, empty rule**: `[]` accepts exactly the empty array. -/
theorem C98_empty (env : Valid.Env) (ev : Ev) (s rule : EV) (p : Valid.Path) (st : St) (h : items rule = []) :
    ∃ b, evalRuleWithParams env ev s rule p st = (.ok b, st) ∧ (b = true ↔ s.sh = .arr ∧ s.kids = []) := by
  unfold evalRuleWithParams
  rw [h]
  refine ⟨isArr s && (items s).isEmpty, rfl, ?_⟩
  unfold isArr items
  cases s.sh <;> simp

/-- The hypotheses on the recursive call hold for literal rules (see the example beside C95); here a rule that accepts:
`["prefix","ab",'c]` on `abc` and `["all","string",["minsize",3]]`. -/
example : (evalRule venv undefV 4 (vs 20 "abc") (va 1 [vs 2 "prefix", vs 3 "ab", vs 4 "'c"]) [] {}).1 = .ok true ∧
    (evalRule venv undefV 4 (vs 20 "abc") (va 1 [vs 2 "suffix", vs 3 "bc", vs 4 "'a"]) [] {}).1 = .ok true ∧
    (evalRule venv undefV 4 (vs 20 "abc") (va 1 [vs 2 "all", vs 5 "#comment", vs 3 "string", va 4 [vs 6 "minsize", vn 7 3]]) [] {}).1 = .ok true := by
  refine ⟨?_, ?_, ?_⟩ <;> decide +kernel

/-! ## C99 -/

/-- The variable of a name: the value under validation for `$this`, else the innermost one of the name. -/
theorem C99_lookup (vars : List EV) (name : Bytes) (this : EV) :
    (name = ascii "$this" → findVar vars name this = this) ∧
    (name ≠ ascii "$this" → (∀ v ∈ vars, v.key ≠ name) → findVar vars name this = undefV) ∧
    (name ≠ ascii "$this" → ∀ l v r, vars = l ++ v :: r → (∀ x ∈ l, x.key ≠ name) → v.key = name → findVar vars name this = v) := by
  refine ⟨fun h => by unfold findVar; rw [if_pos h], fun h hn => ?_, fun h l v r hv hl hk => ?_⟩
  · unfold findVar
    rw [if_neg h]
    have : vars.find? (fun v => v.key == name) = none := by
      rw [List.find?_eq_none]
      intro x hx
      simpa using hn x hx
    rw [this]
    rfl
  · unfold findVar
    rw [if_neg h, hv, List.find?_append]
    have : l.find? (fun v => v.key == name) = none := by
      rw [List.find?_eq_none]
      intro x hx
      simpa using hl x hx
    rw [this]
    simp [hk]

/-- C99: after `setVariables` with a list or an object, a name stands for its last item with that key; the former variables are gone. -/
theorem C99_setVariables (l : EV) (st : St) (name : Bytes) (this : EV) (hn : name ≠ ascii "$this") :
    ∃ st', setVariables l st = (.ok (), st') ∧ st'.rej = st.rej ∧ st'.emits = st.emits ∧
      findVar st'.vars name this = ((items l).filter (fun v => v.key == name)).getLastD undefV := by
  refine ⟨_, rfl, rfl, rfl, ?_⟩
  unfold findVar
  rw [if_neg hn]
  simp only
  rw [← List.head?_filter, List.filter_reverse, List.head?_reverse]
  rw [List.getLastD_eq_getLast?]

example : ascii "max" ≠ ascii "$this" := by decide +kernel

/-- One step of a reference: a name selects a member, a number an item. -/
def refStep (env : Valid.Env) (x p : EV) : EV := match p.sh with
  | .str s _ => member x s
  | _ => ((items x)[env.uint p]?).getD undefV

/-- The step is a name or a number. -/
def IsStep (p : EV) : Prop := (∃ s f, p.sh = .str s f) ∨ ∃ n, p.sh = .num n

theorem walkVar_step {env : Valid.Env} {vars : List EV} {this : EV} (p : EV) (h : IsStep p) (x : EV) (rest : List EV) :
    walkVar env vars this x (p :: rest) = walkVar env vars this (refStep env x p) rest := by
  rw [walkVar.eq_def]
  dsimp only
  unfold refStep at'
  rcases h with ⟨s, f, h⟩ | ⟨n, h⟩ <;> rw [h]

theorem walkVar_steps {env : Valid.Env} {vars : List EV} {this : EV} (steps : List EV) (h : ∀ p ∈ steps, IsStep p) (x : EV) (rest : List EV) :
    walkVar env vars this x (steps ++ rest) = walkVar env vars this (steps.foldl (refStep env) x) rest := by
  induction steps generalizing x with
  | nil => rfl
  | cons p l ih =>
    rw [List.cons_append, walkVar_step p (h p (by simp)), ih (fun q hq => h q (by simp [hq])), List.foldl_cons]

/-- **C99, references**: `[name,step,...]` with a known variable is the value reached from the variable by the steps, and anything
that does not start with the name of a known variable stays as it is. -/
theorem C99_reference (env : Valid.Env) (vars : List EV) (this : EV) (a : Nat) (k : Bytes) (w : Bool) :
    (∀ n name f steps, n.sh = .str name f → (findVar vars name this).sh ≠ .undef → (∀ p ∈ steps, IsStep p) →
      getVar env vars this (.node a k w .arr (n :: steps)) = steps.foldl (refStep env) (findVar vars name this)) ∧
    (∀ n name f steps, n.sh = .str name f → (findVar vars name this).sh = .undef →
      getVar env vars this (.node a k w .arr (n :: steps)) = .node a k w .arr (n :: steps)) ∧
    (∀ n steps, (∀ name f, n.sh ≠ .str name f) → getVar env vars this (.node a k w .arr (n :: steps)) = .node a k w .arr (n :: steps)) ∧
    (∀ sh kids, sh ≠ .arr ∨ kids = [] → getVar env vars this (.node a k w sh kids) = .node a k w sh kids) := by
  refine ⟨?_, ?_, ?_, ?_⟩
  · intro n name f steps hn hd hs
    unfold getVar
    dsimp only
    rw [hn]
    dsimp only
    rw [if_pos (by simp [defd, hd])]
    have := walkVar_steps (env := env) (vars := vars) (this := this) steps hs (findVar vars name this) []
    rw [List.append_nil] at this
    rw [this, walkVar.eq_def]
  · intro n name f steps hn hd
    unfold getVar
    dsimp only
    rw [hn]
    dsimp only
    rw [if_neg (by simp [defd, hd])]
  · intro n steps hn
    unfold getVar
    dsimp only
    split
    · rename_i s f h
      exact absurd h (hn s f)
    · rfl
  · intro sh kids h
    unfold getVar
    split
    · rcases h with h | h
      · exact absurd rfl h
      · simp at h
    · rfl

/-- **C99, nested references**: a step that is itself a reference stands for its value, when that is a name or a number; otherwise the
whole reference stays as it is. -/
theorem C99_nested (env : Valid.Env) (vars : List EV) (this : EV) (a : Nat) (k : Bytes) (w : Bool) (n : EV) (name : Bytes) (f : Bool) (before : List EV)
    (q : EV) (after : List EV) (hn : n.sh = .str name f) (hd : (findVar vars name this).sh ≠ .undef)
    (hb : ∀ p ∈ before, IsStep p) (hq : q.sh = .arr) (ha : ∀ p ∈ after, IsStep p) :
    (IsStep (getVar env vars this q) → getVar env vars this (.node a k w .arr (n :: (before ++ q :: after))) =
      getVar env vars this (.node a k w .arr (n :: (before ++ getVar env vars this q :: after)))) ∧
    (¬ IsStep (getVar env vars this q) → getVar env vars this (.node a k w .arr (n :: (before ++ q :: after))) =
      .node a k w .arr (n :: (before ++ q :: after))) := by
  have hs : ∀ l, getVar env vars this (.node a k w .arr (n :: l)) =
      (walkVar env vars this (findVar vars name this) l).getD (.node a k w .arr (n :: l)) := by
    intro l
    rw [getVar.eq_def]
    dsimp only
    rw [hn]
    dsimp only
    rw [if_pos (by simp [defd, hd])]
    cases walkVar env vars this (findVar vars name this) l <;> rfl
  rw [hs, walkVar_steps before hb]
  constructor
  · intro h
    rw [(C99_reference env vars this a k w).1 n name f _ hn hd (by
      intro p hp
      rw [List.mem_append, List.mem_cons] at hp
      rcases hp with hp | rfl | hp
      · exact hb p hp
      · exact h
      · exact ha p hp)]
    have h1 : walkVar env vars this (before.foldl (refStep env) (findVar vars name this)) (q :: after) =
        walkVar env vars this (refStep env (before.foldl (refStep env) (findVar vars name this)) (getVar env vars this q)) after := by
      rw [walkVar.eq_def]
      dsimp only
      rw [hq]
      dsimp only
      unfold refStep at'
      rcases h with ⟨s, f, h⟩ | ⟨n, h⟩ <;> rw [h]
    have h2 := walkVar_steps (env := env) (vars := vars) (this := this) after ha
      (refStep env (before.foldl (refStep env) (findVar vars name this)) (getVar env vars this q)) []
    rw [List.append_nil] at h2
    rw [h1, h2, walkVar.eq_def]
    simp
  · intro h
    have h1 : walkVar env vars this (before.foldl (refStep env) (findVar vars name this)) (q :: after) = none := by
      rw [walkVar.eq_def]
      dsimp only
      rw [hq]
      dsimp only
      split
      · rename_i s f hh; exact absurd (.inl ⟨s, f, hh⟩) h
      · rename_i m hh; exact absurd (.inr ⟨m, hh⟩) h
      · rfl
    rw [h1]
    rfl

/-- **C99, use**: `usevar` applies the rules to the value of the variable, `[name,...]` compares with it. -/
theorem C99_use (env : Valid.Env) (ev : Ev) (acc : EV → EV → Bool) (s args : EV) (p : Valid.Path) (st : St) (v : EV)
    (hv : ((at' args 1).sh = .arr ∧ v = getVar env st.vars s (at' args 1)) ∨
      ∃ name f, (at' args 1).sh = .str name f ∧ v = findVar st.vars name s)
    (h : EvIs ev acc st.vars [v] ((items args).drop 2)) :
    ∃ b st', evalToken env ev s args (ascii "usevar") p st = (.ok b, st') ∧ st'.vars = st.vars ∧
      (b = true ↔ v.sh ≠ .undef ∧ OneFrom acc args 2 v) := by
  have hstep : evalToken env ev s args (ascii "usevar") p st =
      (if defd v then alternatives ev v args 2 p else pure false) st := by
    have h0 : evalToken env ev s args (ascii "usevar") p st = opUseVar env ev s args p st := rfl
    rw [h0]
    unfold opUseVar
    rw [bind_def]
    simp only [M.get]
    have : (if isArr (at' args 1) then getVar env st.vars s (at' args 1) else findVar st.vars (getStr env (at' args 1)) s) = v := by
      unfold isArr getStr
      rcases hv with ⟨h1, h2⟩ | ⟨name, f, h1, h2⟩ <;> rw [h1, h2]
      · rfl
      · rfl
    rw [this]
  rw [hstep]
  by_cases hd : v.sh = .undef
  · exact ⟨false, st, by simp [defd, hd], rfl, by simp [hd]⟩
  · obtain ⟨b, st', e, w, hb⟩ := C95_alternatives ev acc v args 2 p st h
    refine ⟨b, st', by simpa [defd, hd] using e, w, hb.trans ?_⟩
    simp [hd, OneFrom]

/-- The names of rules with parameters. -/
def tokenNames : List Bytes := ["minsize", "maxsize", "key", "tostring", "tonumber", "prefix", "suffix", "split", "explode", ">", ">=", "<", "<=",
  "all", "^", "datetime", "not", "!", "setvar", "usevar", "emit"].map ascii

/-- **C99, comparison**: `[name,step,...]` with a known variable accepts the values equal to the value it refers to; with an unknown name the
list is a list of alternatives. -/
theorem C99_compare (env : Valid.Env) (ev : Ev) (s rule : EV) (token : Bytes) (p : Valid.Path) (st : St) (ht : token ∉ tokenNames) :
    ((findVar st.vars token s).sh ≠ .undef → evalToken env ev s rule token p st = (.ok (opEq s (getVar env st.vars s rule)), st)) ∧
    ((findVar st.vars token s).sh = .undef → evalToken env ev s rule token p st = alternatives ev s rule 0 p st) := by
  simp only [tokenNames, List.map_cons, List.map_nil, List.mem_cons, List.not_mem_nil, or_false, not_or] at ht
  obtain ⟨h1, h2, h3, h4, h5, h6, h7, h8, h9, h10, h11, h12, h13, h14, h15, h16, h17, h18, h19, h20, h21⟩ := ht
  have hstep : evalToken env ev s rule token p st =
      (if defd (findVar st.vars token s) then pure (opEq s (getVar env st.vars s rule)) else alternatives ev s rule 0 p : M Bool) st := by
    unfold evalToken
    rw [bind_def]
    simp only [M.get]
    rw [if_neg h1, if_neg h2, if_neg h3, if_neg h4, if_neg h5, if_neg h6, if_neg h7, if_neg h8, if_neg h9,
      if_neg (not_or.2 ⟨h10, not_or.2 ⟨h11, not_or.2 ⟨h12, h13⟩⟩⟩), if_neg (not_or.2 ⟨h14, h15⟩), if_neg h16, if_neg (not_or.2 ⟨h17, h18⟩),
      if_neg h19, if_neg h20, if_neg h21]
  rw [hstep]
  constructor
  · intro hd
    simp [defd, hd]
  · intro hd
    simp [defd, hd]

/-- **C99, emitted values**: `["emit",value,rule]` decides like the rule; when it accepts, the value with its references replaced is
appended to the emitted values. -/
theorem C99_emit (env : Valid.Env) (ev : Ev) (s args : EV) (p : Valid.Path) (st st1 : St) (b : Bool)
    (h : ev s (at' args 2) p st = (.ok b, st1)) :
    evalToken env ev s args (ascii "emit") p st =
      (.ok b, { st1 with emits := st1.emits ++ if b then [walkObject env st1.vars s (at' args 1)] else [] }) := by
  have h0 : evalToken env ev s args (ascii "emit") p st = opEmit env ev s args p st := rfl
  rw [h0]
  unfold opEmit
  rw [bind_def, h]
  cases b with
  | true => rfl
  | false => simp

/-- **C99, substitution**: a reference is replaced by its value, other arrays and objects are rebuilt from their parts (items and members
without a value are left out), everything else is kept. -/
theorem C99_substitute (env : Valid.Env) (vars : List EV) (s : EV) (a : Nat) (k : Bytes) (w : Bool) :
    (∀ kids, env.base (getVar env vars s (.node a k w .arr kids)).addr ≠ env.base a →
      walkObject env vars s (.node a k w .arr kids) = getVar env vars s (.node a k w .arr kids)) ∧
    (∀ kids, env.base (getVar env vars s (.node a k w .arr kids)).addr = env.base a →
      walkObject env vars s (.node a k w .arr kids) = .node 0 [] false .arr ((kids.map (walkObject env vars s)).filter fun x => decide (x.sh ≠ .undef))) ∧
    (∀ f kids, (walkObject env vars s (.node a k w (.obj f) kids)).sh = .obj false ∧
      (walkObject env vars s (.node a k w (.obj f) kids)).wrapped = false ∧ (walkObject env vars s (.node a k w (.obj f) kids)).addr = 0 ∧
      (walkObject env vars s (.node a k w (.obj f) kids)).kids.map (fun m => (m.key, m.sh, m.wrapped, m.kids)) =
        (kids.map fun x => (x.key, (walkObject env vars s x).sh, (walkObject env vars s x).wrapped, (walkObject env vars s x).kids)).filter
          fun m => decide (m.2.1 ≠ .undef)) ∧
    (∀ sh kids, sh ≠ .arr → (∀ f, sh ≠ .obj f) → walkObject env vars s (.node a k w sh kids) = .node a k w sh kids) := by
  have hi : ∀ l, walkItems env vars s l = (l.map (walkObject env vars s)).filter fun x => decide (x.sh ≠ .undef) := by
    intro l
    induction l with
    | nil => rw [walkItems.eq_def]; rfl
    | cons x t ih =>
      rcases hx : walkObject env vars s x with ⟨a', k', w', sh, kk⟩
      rw [walkItems.eq_def]
      dsimp only
      rw [ih, List.map_cons, hx]
      by_cases hu : sh = .undef
      · subst hu
        simp [EV.sh]
      · simp [hu, EV.sh]
  refine ⟨?_, ?_, ?_, ?_⟩
  · intro kids h
    rw [walkObject.eq_def]
    dsimp only
    rw [if_pos]
    simpa [isCopyOf, EV.addr] using h
  · intro kids h
    rw [walkObject.eq_def]
    dsimp only
    rw [if_neg, hi]
    simpa [isCopyOf, EV.addr] using h
  · intro f kids
    rw [walkObject.eq_def]
    dsimp only
    refine ⟨rfl, rfl, rfl, ?_⟩
    show (walkMembers env vars s kids).map _ = _
    induction kids with
    | nil => rw [walkMembers.eq_def]; rfl
    | cons x t ih =>
      rcases hx : walkObject env vars s x with ⟨a', k', w', sh, kk⟩
      have hm : walkMembers env vars s (x :: t) = (if sh = .undef then [] else [.node a' x.key w' sh kk]) ++ walkMembers env vars s t := by
        rw [walkMembers.eq_def]
        dsimp only
        rw [hx]
      rw [hm, List.map_append, ih, List.map_cons, hx]
      by_cases hu : sh = .undef
      · subst hu
        simp [EV.sh]
      · simp [hu, EV.sh, EV.kids, EV.key, EV.wrapped]
  · intro sh kids h1 h2
    rw [walkObject.eq_def]
    dsimp only
    cases sh with
    | arr => exact absurd rfl h1
    | obj f => exact absurd rfl (h2 f)
    | _ => rfl

/-- **C99 does not hold for the accepted way**: values emitted in an alternative that failed later stay. The rule
`[["all",["emit","x","any"],"number"],"any"]` accepts a string by its second alternative, and `x` is emitted. -/
theorem C99_violation_emit :
    let r := evalRule venv undefV 6 (vs 20 "abc")
      (va 1 [va 2 [vs 3 "all", va 4 [vs 5 "emit", vs 6 "x", vs 7 "any"], vs 8 "number"], vs 9 "any"]) [] {}
    r.1 = .ok true ∧ r.2.emits.map EV.sh = [.str (ascii "x") false] := by
  decide +kernel

/-- **C99 does not hold for rejected subjects**: a failed validation leaves emitted values. -/
theorem C99_violation_rejected :
    let r := evalRule venv undefV 6 (vs 20 "abc")
      (va 2 [vs 3 "all", va 4 [vs 5 "emit", vs 6 "x", vs 7 "any"], vs 8 "number"]) [] {}
    r.1 = .ok false ∧ r.2.emits.map EV.sh = [.str (ascii "x") false] := by
  decide +kernel

/-- A reference: `["$v","a",0]` where `$v` is `{"a":[7]}`. -/
example : (getVar venv [.node 30 (ascii "$v") false (.obj false) [vka 31 (ascii "a") [vn 32 7]]] undefV
    (va 1 [vs 2 "$v", vs 3 "a", vn 4 0])).sh = .num (.uint 7) := by decide +kernel

end Imt.Props
