import Verif.Props.Validator
/-!
# The validator: C168 (what a rejection names)
-/
namespace Imt.Props
open Imt Imt.Eq Imt.Valid

/-- Parts of a definition: itself, its members and items, theirs, and so on. -/
inductive RulePart (df : EV) : EV → Prop where
  | root : RulePart df df
  | kid (v x : EV) : RulePart df v → x ∈ items v → RulePart df x

/-- Values a rule makes of its subject and hands to the rules in it: the key, conversions, parts of a text or of an
array, and for `usevar` the value of a variable. -/
inductive MadeOf (env : Valid.Env) (s : EV) : EV → Prop where
  | key (a : Nat) : MadeOf env s (.node a [] false (.str s.key false) [])
  | text (a : Nat) : MadeOf env s (.node a [] false (.str (env.toStr s) false) [])
  | number (a : Nat) : MadeOf env s (.node a [] false (.num (env.toNum s)) [])
  | left (k : Int) : MadeOf env s (env.splitAt s k).1
  | right (k : Int) : MadeOf env s (env.splitAt s k).2
  | behind (a k : Nat) : MadeOf env s (.node a [] false (.str ((getStr env s).drop k) false) [])
  | before (a k : Nat) : MadeOf env s (.node a [] false (.str ((getStr env s).take k) false) [])
  | parts (a : Nat) (sep : Bytes) (lim : Option Nat) : MadeOf env s (.node a [] false .arr
      ((env.explode (getStr env s) sep lim).mapIdx fun i t => .node (a + 1 + i) [] false (.str t false) []))
  | var (vars : List EV) (v : EV) : MadeOf env s (getVar env vars s v)
  | named (vars : List EV) (name : Bytes) : MadeOf env s (findVar vars name s)

/-- The value at a place below `p0`, where `s0` is: the item, the member, nothing where a member is missing; and values
made of it. -/
inductive AtPlace (env : Valid.Env) (s0 : EV) (p0 : Valid.Path) : Valid.Path → EV → Prop where
  | root : AtPlace env s0 p0 p0 s0
  | item (p : Valid.Path) (s : EV) (i : Nat) : AtPlace env s0 p0 p s → AtPlace env s0 p0 (p ++ [.idx i]) (at' s i)
  | member (p : Valid.Path) (s x : EV) : AtPlace env s0 p0 p s → x ∈ items s → AtPlace env s0 p0 (p ++ [.key x.key]) x
  | missing (p : Valid.Path) (s : EV) (k : Bytes) : AtPlace env s0 p0 p s → AtPlace env s0 p0 (p ++ [.key k]) undefV
  | made (p : Valid.Path) (s v : EV) : AtPlace env s0 p0 p s → MadeOf env s v → AtPlace env s0 p0 p v

/-- The rule `r` was evaluated for the value at the place `q` and not satisfied: as a rule, or as the list of alternatives
for the item of an array. -/
def NotMet (env : Valid.Env) (df s0 : EV) (p0 q : Valid.Path) (r : EV) : Prop :=
  ∃ (n : Nat) (s : EV) (st st' : St), AtPlace env s0 p0 q s ∧ (evalRule env df n s r q st = (.ok false, st') ∨
    ∃ (p : Valid.Path) (i off : Nat), q = p ++ [.idx i] ∧
      alternatives (evalRule env df n) s r off q st = (.ok false, st'))

/-- What a rejection says: a place at or below `p0`, and a rule of the definition that was not met there; for a rule that
does not exist it is the text `undefined`. -/
def Tells (env : Valid.Env) (df s0 : EV) (p0 q : Valid.Path) (r : EV) : Prop :=
  p0 <+: q ∧ ((RulePart df r ∧ NotMet env df s0 p0 q r) ∨
    (r.sh = .str (ascii "undefined") false ∧ ∃ r0, defd r0 = false ∧ NotMet env df s0 p0 q r0))

/-- All rejections tell. -/
def AllTell (env : Valid.Env) (df s0 : EV) (p0 : Valid.Path) (st : St) : Prop := ∀ e ∈ st.rej, Tells env df s0 p0 e.1 e.2

/-- A call keeps it, whatever its outcome. -/
def KeepsTell (env : Valid.Env) (df s0 : EV) (p0 : Valid.Path) {α : Type} (x : M α) : Prop :=
  ∀ st, AllTell env df s0 p0 st → AllTell env df s0 p0 (x st).2

/-- A part of the definition, or no rule. -/
def RuleOr (df r : EV) : Prop := defd r = false ∨ RulePart df r

section
variable {env : Valid.Env} {df s0 : EV} {p0 : Valid.Path}

theorem kt_pure {α : Type} (a : α) : KeepsTell env df s0 p0 (pure a : M α) := fun _ h => h
theorem kt_lift {α : Type} (r : Res α) : KeepsTell env df s0 p0 (M.lift r) := fun _ h => h
theorem kt_get : KeepsTell env df s0 p0 M.get := fun _ h => h
theorem kt_trunc (n : Nat) : KeepsTell env df s0 p0 (truncRej n) := fun _ h _ he => h _ (List.mem_of_mem_take he)

theorem kt_bind' {α β : Type} {x : M α} {f : α → M β} {st : St}
    (h1 : AllTell env df s0 p0 (x st).2)
    (hf : ∀ a st1, x st = (.ok a, st1) → AllTell env df s0 p0 st1 → AllTell env df s0 p0 (f a st1).2) :
    AllTell env df s0 p0 ((x >>= f) st).2 := by
  rw [bind_def]
  rcases hx' : x st with ⟨r, st1⟩
  rw [hx'] at h1
  cases r with
  | ok a => exact hf a st1 hx' h1
  | err => exact h1
  | ub => exact h1
  | abort => exact h1
  | fuel => exact h1

theorem kt_bind {α β : Type} {x : M α} {f : α → M β} (hx : KeepsTell env df s0 p0 x) (hf : ∀ a, KeepsTell env df s0 p0 (f a)) :
    KeepsTell env df s0 p0 (x >>= f) := fun st h => kt_bind' (hx st h) fun a st1 _ h1 => hf a st1 h1

theorem kt_ite {α : Type} {c : Prop} [Decidable c] {x y : M α} (h1 : KeepsTell env df s0 p0 x) (h2 : KeepsTell env df s0 p0 y) :
    KeepsTell env df s0 p0 (if c then x else y) := by
  split
  · exact h1
  · exact h2

theorem tell_addRejDef {q : Valid.Path} {r : EV} {st : St} (h : AllTell env df s0 p0 st) (hq : Tells env df s0 p0 q r) :
    AllTell env df s0 p0 (addRejDef env q r st).2 := by
  unfold addRejDef
  split
  · exact h
  · split
    · exact h
    · intro e he
      rcases List.mem_append.1 he with he | he
      · exact h e he
      · obtain rfl := List.mem_singleton.1 he
        exact hq

theorem tell_addRej {q : Valid.Path} {r : EV} {st : St} (h : AllTell env df s0 p0 st) (hp : p0 <+: q) (hr : RuleOr df r)
    (hn : NotMet env df s0 p0 q r) : AllTell env df s0 p0 (addRej env q r st).2 := by
  unfold addRej
  cases hd : defd r with
  | false => exact tell_addRejDef h ⟨hp, .inr ⟨rfl, r, hd, hn⟩⟩
  | true =>
    rcases hr with hr | hr
    · rw [hd] at hr; exact absurd hr (by decide)
    · exact tell_addRejDef h ⟨hp, .inl ⟨hr, hn⟩⟩

theorem at_below {p : Valid.Path} {s : EV} (h : AtPlace env s0 p0 p s) : p0 <+: p := by
  induction h with
  | root => exact List.prefix_refl _
  | item _ _ _ _ ih => exact ih.trans (List.prefix_append _ _)
  | member _ _ _ _ _ ih => exact ih.trans (List.prefix_append _ _)
  | missing _ _ _ _ ih => exact ih.trans (List.prefix_append _ _)
  | made _ _ _ _ _ ih => exact ih

theorem items_undef {v : EV} (h : defd v = false) : items v = [] := by
  unfold defd at h
  have h' : v.sh = .undef := by simpa using h
  unfold items
  rw [h']

theorem ruleOr_item {v x : EV} (h : RuleOr df v) (hx : x ∈ items v) : RuleOr df x := by
  rcases h with h | h
  · rw [items_undef h] at hx; cases hx
  · exact .inr (.kid v x h hx)

theorem ruleOr_at {v : EV} (h : RuleOr df v) (i : Nat) : RuleOr df (at' v i) := by
  unfold at'
  cases hi : (items v)[i]? with
  | none => exact .inl rfl
  | some x => exact ruleOr_item h (List.mem_of_getElem? hi)

theorem ruleOr_member {v : EV} (h : RuleOr df v) (k : Bytes) : RuleOr df (member v k) := by
  unfold member
  split
  · rename_i b hv
    cases hi : v.kids.find? (fun x => x.key == k) with
    | none => exact .inl rfl
    | some x => exact ruleOr_item h (by unfold items; rw [hv]; exact List.mem_of_find?_eq_some hi)
  · exact .inl rfl

theorem kt_newStr {f : EV → M Bool} (t : Bytes)
    (h : ∀ a, KeepsTell env df s0 p0 (f (.node a [] false (.str t false) []))) : KeepsTell env df s0 p0 (newStr t >>= f) :=
  fun st hst => h st.next _ hst

theorem kt_newNum {f : EV → M Bool} (t : Num)
    (h : ∀ a, KeepsTell env df s0 p0 (f (.node a [] false (.num t) []))) : KeepsTell env df s0 p0 (newNum t >>= f) :=
  fun st hst => h st.next _ hst

theorem kt_newStrArr {f : EV → M Bool} (l : List Bytes)
    (h : ∀ a, KeepsTell env df s0 p0 (f (.node a [] false .arr
      (l.mapIdx fun i t => .node (a + 1 + i) [] false (.str t false) [])))) : KeepsTell env df s0 p0 (newStrArr l >>= f) :=
  fun st hst => h st.next _ hst

variable {n : Nat}
  (hev : ∀ s r p, RuleOr df r → AtPlace env s0 p0 p s → KeepsTell env df s0 p0 (evalRule env df n s r p))
include hev

theorem kt_alts (s : EV) (p : Valid.Path) (l : List EV) (hl : ∀ r ∈ l, RuleOr df r) (hp : AtPlace env s0 p0 p s) :
    KeepsTell env df s0 p0 (alts (evalRule env df n) s p l) := by
  induction l with
  | nil => exact kt_pure _
  | cons v t ih =>
    exact kt_bind (hev _ _ _ (hl v (List.mem_cons_self ..)) hp) fun _ =>
      kt_ite (kt_pure _) (ih fun r hr => hl r (List.mem_cons_of_mem _ hr))

theorem kt_alternatives (s rule : EV) (off : Nat) (p : Valid.Path) (hr : RuleOr df rule) (hp : AtPlace env s0 p0 p s) :
    KeepsTell env df s0 p0 (alternatives (evalRule env df n) s rule off p) :=
  kt_alts hev _ _ _ (fun _ hx => ruleOr_item hr (List.mem_of_mem_drop hx)) hp

theorem kt_subAlts (s rule : EV) (i off : Nat) (p : Valid.Path) (hr : RuleOr df rule)
    (hp : AtPlace env s0 p0 (p ++ [.idx i]) s) :
    KeepsTell env df s0 p0 (subAlts env (evalRule env df n) s rule i off p) := by
  intro st h
  refine kt_bind' (kt_get st h) fun a st1 _ h1 => ?_
  refine kt_bind' (kt_alternatives hev s rule off _ hr hp _ h1) fun b st2 hb h2 => ?_
  cases b with
  | false =>
    exact kt_bind' (tell_addRej h2 (at_below hp) hr ⟨n, s, st1, st2, hp, .inr ⟨p, i, off, rfl, hb⟩⟩) fun _ _ _ h3 => h3
  | true => exact kt_bind' (kt_trunc _ _ h2) fun _ _ _ h3 => h3

theorem kt_tupleLoop (s rule : EV) (off : Nat) (p : Valid.Path) (hr : RuleOr df rule) (hp : AtPlace env s0 p0 p s)
    (m i : Nat) : KeepsTell env df s0 p0 (tupleLoop (evalRule env df n) s rule off p m i) := by
  induction m generalizing i with
  | zero => exact kt_pure _
  | succ m ih => exact kt_bind (hev _ _ _ (ruleOr_at hr _) (.item _ _ _ hp)) fun _ => kt_ite (kt_pure _) (ih _)

theorem kt_restLoop (rule : EV) (off : Nat) (p : Valid.Path) (hr : RuleOr df rule) (l : List EV) (i : Nat)
    (hl : ∀ (j : Nat) (x : EV), l[j]? = some x → AtPlace env s0 p0 (p ++ [.idx (i + j)]) x) :
    KeepsTell env df s0 p0 (restLoop env (evalRule env df n) rule off p l i) := by
  induction l generalizing i with
  | nil => exact kt_pure _
  | cons x t ih =>
    refine kt_bind (kt_subAlts hev _ _ _ _ _ hr (hl 0 x rfl)) fun _ => kt_ite (kt_pure _) (ih _ fun j y hy => ?_)
    have := hl (j + 1) y (by simpa using hy)
    rwa [show i + 1 + j = i + (j + 1) by omega]

theorem kt_evalRuleArray (s rule : EV) (m off : Nat) (p : Valid.Path) (hr : RuleOr df rule) (hp : AtPlace env s0 p0 p s) :
    KeepsTell env df s0 p0 (evalRuleArray env (evalRule env df n) s rule m off p) := by
  refine kt_ite (kt_pure _) (kt_bind (kt_tupleLoop hev _ _ _ _ hr hp _ _) fun _ =>
    kt_ite (kt_pure _) (kt_restLoop hev _ _ _ hr _ _ fun j x hx => ?_))
  rw [List.getElem?_drop] at hx
  have e : x = at' s (m + j) := by unfold at'; rw [hx]; rfl
  rw [e]
  exact .item _ _ _ hp

theorem kt_rangeLoop (s : EV) (p : Valid.Path) (hp : AtPlace env s0 p0 p s) : ∀ (m : Nat) (l : List EV), l.length ≤ m →
    (∀ r ∈ l, RuleOr df r) → KeepsTell env df s0 p0 (rangeLoop env (evalRule env df n) s p l) := by
  intro m
  induction m with
  | zero =>
    intro l hl _
    obtain rfl := List.length_eq_zero_iff.1 (Nat.le_zero.1 hl)
    unfold rangeLoop; exact kt_pure _
  | succ m ih =>
    intro l hl hr
    cases l with
    | nil => unfold rangeLoop; exact kt_pure _
    | cons v rest =>
      have hr1 : rest.length ≤ m := by simpa using hl
      have hr2 : ∀ r ∈ rest, RuleOr df r := fun r h => hr r (List.mem_cons_of_mem _ h)
      unfold rangeLoop
      split
      · exact ih _ hr1 hr2
      · cases rest with
        | nil => exact kt_bind kt_get fun _ => kt_pure _
        | cons o rest =>
          refine kt_bind kt_get fun _ => kt_ite ?_ (kt_pure _)
          exact ih _ (by simp at hr1; omega) fun r h => hr2 r (List.mem_cons_of_mem _ h)
      · exact kt_bind (hev _ _ _ (hr v (List.mem_cons_self ..)) hp) fun _ => kt_ite (kt_pure _) (ih _ hr1 hr2)

theorem kt_memberEval (s t : EV) (k : Bytes) (p : Valid.Path) (cont : M Bool) (ht : RuleOr df t)
    (hp : AtPlace env s0 p0 (p ++ [.key k]) s) (hc : KeepsTell env df s0 p0 cont) :
    KeepsTell env df s0 p0 (memberEval env (evalRule env df n) s t k p cont) := by
  intro st h
  refine kt_bind' (hev s t _ ht hp st h) fun b st1 hb h1 => ?_
  cases b with
  | false => exact kt_bind' (tell_addRej h1 (at_below hp) ht ⟨n, s, st, st1, hp, .inl hb⟩) fun _ _ _ h3 => h3
  | true => exact hc _ h1

theorem kt_objRestS (s wild : EV) (p : Valid.Path) (hw : RuleOr df wild) (hp : AtPlace env s0 p0 p s) (l : List EV)
    (hl : ∀ x ∈ l, x ∈ items s) : KeepsTell env df s0 p0 (objRestS env (evalRule env df n) wild p l) := by
  induction l with
  | nil => exact kt_pure _
  | cons x t ih =>
    exact kt_memberEval hev _ _ _ _ _ hw (.member _ _ _ hp (hl x (List.mem_cons_self ..)))
      (ih fun r h => hl r (List.mem_cons_of_mem _ h))

theorem kt_objRestT (s : EV) (p : Valid.Path) (hp : AtPlace env s0 p0 p s) (l : List EV) (hl : ∀ r ∈ l, RuleOr df r) :
    KeepsTell env df s0 p0 (objRestT env (evalRule env df n) p l) := by
  induction l with
  | nil => exact kt_pure _
  | cons x t ih =>
    exact kt_memberEval hev _ _ _ _ _ (hl x (List.mem_cons_self ..)) (.missing _ _ _ hp)
      (ih fun r h => hl r (List.mem_cons_of_mem _ h))

theorem kt_objLoop (s wild : EV) (p : Valid.Path) (hw : RuleOr df wild) (hp : AtPlace env s0 p0 p s) (m : Nat)
    (ss ts : List EV) (hs : ∀ x ∈ ss, x ∈ items s) (hl : ∀ r ∈ ts, RuleOr df r) :
    KeepsTell env df s0 p0 (objLoop env (evalRule env df n) wild p m ss ts) := by
  induction m generalizing ss ts with
  | zero => exact kt_lift _
  | succ m ih =>
    cases ss with
    | nil =>
      cases ts with
      | nil => exact kt_objRestS hev _ _ _ hw hp _ hs
      | cons t ts => exact kt_objRestT hev _ _ hp _ hl
    | cons x ss =>
      cases ts with
      | nil => exact kt_objRestS hev _ _ _ hw hp _ hs
      | cons t ts =>
        have h1 := hl t (List.mem_cons_self ..)
        have h2 : ∀ r ∈ ts, RuleOr df r := fun r h => hl r (List.mem_cons_of_mem _ h)
        have g1 : AtPlace env s0 p0 (p ++ [.key x.key]) x := .member _ _ _ hp (hs x (List.mem_cons_self ..))
        have g2 : ∀ y ∈ ss, y ∈ items s := fun r h => hs r (List.mem_cons_of_mem _ h)
        unfold objLoop
        dsimp only
        split_ifs
        · exact ih _ _ g2 hl
        · exact kt_memberEval hev _ _ _ _ _ hw g1 (ih _ _ g2 hl)
        · exact ih _ _ hs h2
        · exact kt_memberEval hev _ _ _ _ _ h1 (.missing _ _ _ hp) (ih _ _ hs h2)
        · exact ih _ _ g2 h2
        · exact kt_memberEval hev _ _ _ _ _ h1 g1 (ih _ _ g2 h2)

theorem kt_evalRuleSimple (s : EV) (name : Bytes) (p : Valid.Path) (hp : AtPlace env s0 p0 p s) :
    KeepsTell env df s0 p0 (evalRuleSimple env (evalRule env df n) df s name p) := by
  unfold evalRuleSimple
  split
  · exact kt_pure _
  · split_ifs
    · exact kt_pure _
    · exact kt_pure _
    · exact kt_lift _
    · exact kt_pure _
    · split
      · exact kt_pure _
      · exact kt_ite (kt_lift _) (kt_ite (kt_pure _) (hev _ _ _ (ruleOr_member (.inr .root) _) hp))

theorem kt_evalToken (s rule : EV) (token : Bytes) (p : Valid.Path) (hr : RuleOr df rule) (hp : AtPlace env s0 p0 p s) :
    KeepsTell env df s0 p0 (evalToken env (evalRule env df n) s rule token p) := by
  have ha := fun off => kt_alternatives hev s rule off p hr hp
  have hv := fun v (hv : MadeOf env s v) off => kt_alternatives hev v rule off p hr (.made _ _ _ hp hv)
  have he := fun v (hv : MadeOf env s v) i => hev v _ p (ruleOr_at hr i) (.made _ _ _ hp hv)
  have hm : ∀ r ∈ items rule, RuleOr df r := fun r h => ruleOr_item hr h
  refine kt_bind kt_get fun st => ?_
  refine kt_ite (kt_pure _) ?_
  refine kt_ite (kt_pure _) ?_
  refine kt_ite (kt_newStr _ fun a => hv _ (.key a) _) ?_
  refine kt_ite (kt_newStr _ fun a => hv _ (.text a) _) ?_
  refine kt_ite (kt_newNum _ fun a => hv _ (.number a) _) ?_
  refine kt_ite (kt_ite (kt_ite (kt_pure _) (kt_ite (hv _ (.right _) _) (kt_pure _)))
    (kt_ite (kt_pure _) (kt_ite (kt_newStr _ fun a => hv _ (.behind a _) _) (kt_pure _)))) ?_
  refine kt_ite (kt_ite (kt_ite (kt_pure _) (kt_ite (hv _ (.left _) _) (kt_pure _))) (kt_ite (kt_pure _) (kt_ite (kt_pure _)
    (kt_ite (kt_newStr _ fun a => hv _ (.before a _) _) (kt_pure _))))) ?_
  refine kt_ite (kt_bind (he _ (.left _) _) fun _ => kt_ite (he _ (.right _) _) (kt_pure _)) ?_
  refine kt_ite (kt_newStrArr _ fun a => he _ (.parts a _ _) _) ?_
  refine kt_ite (kt_rangeLoop hev _ _ hp _ _ (Nat.le_refl _) hm) ?_
  refine kt_ite (kt_rangeLoop hev _ _ hp _ _ (Nat.le_refl _) fun r h => hm r (List.mem_of_mem_drop h)) ?_
  refine kt_ite (kt_pure _) ?_
  refine kt_ite (kt_bind (ha _) fun _ => kt_pure _) ?_
  refine kt_ite ?_ ?_
  · exact kt_ite (kt_bind (fun st h => h) fun _ => kt_bind (ha _) fun _ => kt_bind (fun st h => h) fun _ => kt_pure _)
      (kt_pure _)
  refine kt_ite (kt_bind kt_get fun st => kt_ite (hv _ ?_ _) (kt_pure _)) ?_
  · split
    · exact .var _ _
    · exact .named _ _
  refine kt_ite (kt_bind (hev _ _ _ (ruleOr_at hr _) hp) fun _ =>
    kt_ite (kt_bind (fun st h => h) fun _ => kt_pure _) (kt_pure _)) ?_
  exact kt_ite (kt_pure _) (ha _)

theorem kt_evalBody (s rule : EV) (p : Valid.Path) (hr : RuleOr df rule) (hp : AtPlace env s0 p0 p s) :
    KeepsTell env df s0 p0 (evalBody env (evalRule env df n) df s rule p) := by
  unfold evalBody
  split
  · exact kt_ite (kt_pure _) (kt_objLoop hev _ _ _ (ruleOr_member hr _) hp _ _ _ (fun _ h => h) fun r h => ruleOr_item hr h)
  · unfold evalRuleWithParams
    split
    · exact kt_pure _
    · split
      · split_ifs
        · exact kt_evalRuleArray hev _ _ _ _ _ hr hp
        · exact kt_evalRuleArray hev _ _ _ _ _ hr hp
        · exact kt_alternatives hev _ _ _ _ hr hp
      · exact kt_evalToken hev _ _ _ _ hr hp
      · exact kt_alternatives hev _ _ _ _ hr hp
  · exact kt_evalRuleSimple hev _ _ _ hp
  · exact kt_pure _

end

/-- **C168, one rule**: the rejections an evaluation adds - also one that throws - are at or below its place, and name
parts of the definition that were not met by the value there. -/
theorem C168_rule (env : Valid.Env) (df s0 : EV) (p0 : Valid.Path) (n : Nat) : ∀ (s r : EV) (p : Valid.Path), RuleOr df r →
    AtPlace env s0 p0 p s → ∀ st, AllTell env df s0 p0 st → AllTell env df s0 p0 (evalRule env df n s r p st).2 := by
  induction n with
  | zero => intro s r p _ _ st h; exact h
  | succ n ih =>
    intro s r p hr hp st h
    cases hl : isLit r with
    | true =>
      have : (evalRule env df (n + 1) s r p st).2 = st := by simp [evalRule, step, hl]
      rw [this]; exact h
    | false =>
      have e : ∀ st, evalRule env df (n + 1) s r p st =
          (M.get >>= fun a => evalBody env (evalRule env df n) df s r p >>= fun res =>
            finish env r p a.rej.length res) st := fun st => by
        simp only [evalRule, step, hl, Bool.false_eq_true, if_false]
      rw [e]
      refine kt_bind' (kt_get st h) fun a st1 ha h1 => ?_
      refine kt_bind' (kt_evalBody ih s r p hr hp st1 h1) fun b st2 hb h2 => ?_
      cases b with
      | true => exact kt_bind' (kt_trunc _ _ h2) fun _ _ _ h3 => h3
      | false =>
        obtain ⟨st3, h3⟩ : ∃ st3, addRej env p r st2 = (.ok (), st3) := by
          unfold addRej
          split
          · rw [bind_def]
            simp only [newStr]
            unfold addRejDef
            split_ifs <;> exact ⟨_, rfl⟩
          · unfold addRejDef
            split_ifs <;> exact ⟨_, rfl⟩
        have hn : NotMet env df s0 p0 p r := by
          refine ⟨n + 1, s, st, st3, hp, .inl ?_⟩
          rw [e, bind_def]
          simp only [M.get, Prod.mk.injEq, Res.ok.injEq] at ha
          obtain ⟨rfl, rfl⟩ := ha
          simp only [M.get, bind_def, hb, finish, if_true, h3, pure_def]
        exact kt_bind' (tell_addRej h2 (at_below hp) hr hn) fun _ _ _ h3 => h3

/-- The definition has no version, or version 1. -/
def VersionOk (env : Valid.Env) (df : EV) : Prop :=
  defd (member df (ascii "_version")) = true → deq (env.toNum (member df (ascii "_version"))).dbl' (.fin one) = true

/-- **C168**: after `validate` - however it ends - each rejection names a place at or below the given path, and a rule of
the definition that the value at that place, reached from the subject by that path, did not meet; `undefined` stands for a
rule that is not there. Rejections of earlier validations are gone. -/
theorem C168_places (env : Valid.Env) (df : EV) (n : Nat) (s : EV) (name : Bytes) (path : Valid.Path) (st : St)
    (hv : VersionOk env df) :
    ∀ e ∈ (validate env df n s name path st).2.rej, path <+: e.1 ∧
      ((RulePart df e.2 ∧ NotMet env df s path e.1 e.2) ∨
       (e.2.sh = .str (ascii "undefined") false ∧ ∃ r0, defd r0 = false ∧ NotMet env df s path e.1 r0)) := by
  have hc : ¬ (defd (member df (ascii "_version")) ∧
      deq (env.toNum (member df (ascii "_version"))).dbl' (.fin one) = false) := by
    rintro ⟨h1, h2⟩
    rw [hv h1] at h2
    exact absurd h2 (by decide)
  unfold validate
  rw [if_neg hc]
  exact C168_rule env df s path n s _ path (ruleOr_member (.inr .root) _) .root _ fun e he => by cases he

/-- `{"_root": {"a": [[], "number"], "b": "string"}}` for `{"a": [1, "x"]}` below `in`. -/
example :
    let df := vo 1 [.node 2 (ascii "_root") false (.obj false)
      [vka 3 (ascii "a") [va 4 [], vs 5 "number"], vks 6 (ascii "b") "string"]]
    let r := validate venv df 9 (vo 20 [vka 21 (ascii "a") [vn 22 1, vs 23 "x"]]) (ascii "_root") [.key (ascii "in")] {}
    VersionOk venv df ∧ r.1 = .ok false ∧
      (r.2.rej.map fun e => (e.1, e.2.addr)) = [([.key (ascii "in"), .key (ascii "a"), .idx 1], 5)] := by
  refine ⟨fun h => absurd h (by decide +kernel), by decide +kernel, by decide +kernel⟩

/-- A missing member and one without a rule. -/
example :
    let df := vo 1 [.node 2 (ascii "_root") false (.obj false) [vks 6 (ascii "b") "string"]]
    let r := validate venv df 9 (vo 20 []) (ascii "_root") [] {}
    let r2 := validate venv df 9 (vo 20 [vks 21 (ascii "a") "x"]) (ascii "_root") [] {}
    r.1 = .ok false ∧ (r.2.rej.map fun e => (e.1, e.2.addr)) = [([.key (ascii "b")], 6)] ∧
    r2.1 = .ok false ∧ (r2.2.rej.map fun e => (e.1, e.2.sh))
      = [([.key (ascii "a")], .str (ascii "undefined") false), ([], .obj false)] := by
  decide +kernel

/-- The rejection for a wrong version names the version itself, at a place that does not depend on the path. -/
theorem C168_version (env : Valid.Env) (df : EV) (n : Nat) (s : EV) (name : Bytes) (path : Valid.Path) (st : St)
    (h1 : defd (member df (ascii "_version")) = true)
    (h2 : deq (env.toNum (member df (ascii "_version"))).dbl' (.fin one) = false) :
    ∀ e ∈ (validate env df n s name path st).2.rej, e ∈ st.rej ∨
      e = ([.key (ascii "_version")], member df (ascii "_version")) := by
  unfold validate
  rw [if_pos ⟨h1, h2⟩]
  unfold addRej
  simp only [h1, Bool.not_true, Bool.false_eq_true, if_false]
  rw [bind_def]
  unfold addRejDef
  split_ifs <;> intro e he
  · exact .inl he
  · exact .inl he
  · rcases List.mem_append.1 he with he | he
    · exact .inl he
    · exact .inr (List.mem_singleton.1 he)

example : defd (member (vo 1 [.node 2 (ascii "_version") false (.num (.uint 2)) []]) (ascii "_version")) = true ∧
    deq (venv.toNum (member (vo 1 [.node 2 (ascii "_version") false (.num (.uint 2)) []]) (ascii "_version"))).dbl'
      (.fin one) = false := by decide +kernel

end Imt.Props
