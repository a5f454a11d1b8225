import Verif.Model.Share
/-!
# C139: numbers shared by threads
-/
namespace Imt.Props
open Imt Imt.Share

section
variable {ν : Type} {parse : Bytes → ν} {obj : Nat → Obj} {val : Nat → ν}

/-- Right value of a number. -/
def rightNum (parse : Bytes → ν) (obj : Nat → Obj) (val : Nat → ν) (o : Nat) : ν :=
  if (obj o).precise then parse (obj o).text else val o

/-- Invariant of executions with the stores in the written order. -/
structure ShInv (parse : Bytes → ν) (obj : Nat → Obj) (val : Nat → ν) (s : St ν) : Prop where
  pr : ∀ o, (obj o).precise = true → ((s.cell o).n = none ∨ (s.cell o).n = some (parse (obj o).text))
  ca : ∀ o, (obj o).precise = true → (s.cell o).cached = true → (s.cell o).n = some (parse (obj o).text)
  pl : ∀ o, (obj o).precise = false → (s.cell o).n = some (val o)
  tp : ∀ i o, (s.thr i).pc = .test o ∨ (s.thr i).pc = .fill o ∨ (s.thr i).pc = .flag o ∨ (s.thr i).pc = .late o ∨
    (s.thr i).pc = .read o .bool → (obj o).precise = true
  fl : ∀ i o, (s.thr i).pc = .flag o → (s.cell o).n = some (parse (obj o).text)
  lt : ∀ i o, (s.thr i).pc ≠ .late o
  rn : ∀ i o, (s.thr i).pc = .read o .num → (s.cell o).n = some (rightNum parse obj val o)
  rt : ∀ i o, (s.thr i).pc ≠ .read o .text
  on : ∀ i o x, (o, Op.num, x) ∈ (s.thr i).out → x = .num (some (rightNum parse obj val o))
  ob : ∀ i o x, (o, Op.bool, x) ∈ (s.thr i).out → x = .num none ∨ x = .num (some (rightNum parse obj val o))
  ot : ∀ i o x, (o, Op.text, x) ∈ (s.thr i).out → x = .text (obj o).text

theorem shInv_start {s : St ν} (h : Start parse obj val s) : ShInv parse obj val s := by
  obtain ⟨h1, h2, h3⟩ := h
  constructor
  · intro o ho; rcases h1 o ho with h | h <;> rw [h] <;> simp
  · intro o ho; rcases h1 o ho with h | h <;> rw [h] <;> simp
  · exact h2
  all_goals intro i
  all_goals have := h3 i
  all_goals simp [this.1, this.2]

theorem shInv_step {a b : St ν} (h : ShInv parse obj val a) (hs : Step parse obj false a b) : ShInv parse obj val b := by
  obtain ⟨pr, ca, pl, tp, fl, lt, rn, rt, on, ob, ot⟩ := h
  cases hs <;> constructor <;> grind [upd, rightNum]

theorem shInv_reach {a b : St ν} (h : ShInv parse obj val a) (hr : Reach parse obj false a b) : ShInv parse obj val b := by
  induction hr with
  | refl => exact h
  | step b c _ hs ih => exact shInv_step ih hs

/-- Numbers read so far were cached then. -/
theorem sh_warm {a b : St ν} (h : ∀ i o x, (o, Op.num, x) ∈ (a.thr i).out → (obj o).precise = true → (a.cell o).cached = true)
    (h2 : ∀ i o, (a.thr i).pc = .read o .num → (obj o).precise = true → (a.cell o).cached = true)
    (h3 : ∀ i o, (a.thr i).pc = .late o → (a.cell o).cached = true) {weak : Bool} (hr : Reach parse obj weak a b) :
    (∀ i o x, (o, Op.num, x) ∈ (b.thr i).out → (obj o).precise = true → (b.cell o).cached = true) ∧
    (∀ i o, (b.thr i).pc = .read o .num → (obj o).precise = true → (b.cell o).cached = true) ∧
    (∀ i o, (b.thr i).pc = .late o → (b.cell o).cached = true) := by
  induction hr with
  | refl => exact ⟨h, h2, h3⟩
  | step b c _ hs ih =>
    obtain ⟨i1, i2, i3⟩ := ih
    cases hs <;> refine ⟨?_, ?_, ?_⟩ <;> grind [upd]

theorem sh_text {a b : St ν} (h : ∀ i o x, (o, Op.text, x) ∈ (a.thr i).out → x = .text (obj o).text)
    (h2 : ∀ i o, (a.thr i).pc ≠ .read o .text) {weak : Bool} (hr : Reach parse obj weak a b) :
    (∀ i o x, (o, Op.text, x) ∈ (b.thr i).out → x = .text (obj o).text) ∧ (∀ i o, (b.thr i).pc ≠ .read o .text) := by
  induction hr with
  | refl => exact ⟨h, h2⟩
  | step b c _ hs ih =>
    obtain ⟨i1, i2⟩ := ih
    cases hs <;> refine ⟨?_, ?_⟩ <;> grind [upd]

/-- Every precise number the threads will ask for its number has it cached. -/
def Warm (obj : Nat → Obj) (s : St ν) : Prop :=
  ∀ i o, (o, Op.num) ∈ (s.thr i).ops → (obj o).precise = true → (s.cell o).cached = true

theorem sh_norace {a b : St ν} (hw : Warm obj a) (hi : ∀ i, (a.thr i).pc = .idle) {weak : Bool}
    (hr : Reach parse obj weak a b) :
    Warm obj b ∧ (∀ i o, (b.thr i).pc = .test o → (b.cell o).cached = true) ∧
    (∀ i o, (b.thr i).pc ≠ .fill o ∧ (b.thr i).pc ≠ .flag o ∧ (b.thr i).pc ≠ .late o) ∧ b.cell = a.cell := by
  induction hr with
  | refl => exact ⟨hw, by grind, by grind, rfl⟩
  | step b c _ hs ih =>
    obtain ⟨i1, i2, i3, i4⟩ := ih
    unfold Warm at i1 ⊢
    cases hs <;> refine ⟨?_, ?_, ?_, ?_⟩ <;> grind [upd]

/-- **C139, part: numbers under interleaving.** Whatever the threads do and however their accesses interleave, a thread that
asks a shared number for its value gets the value denoted by the text, provided that the accesses take effect in the
written order. -/
theorem C139_number {a b : St ν} (ha : Start parse obj val a) (hr : Reach parse obj false a b) (i o : Nat) (x : Out ν)
    (hx : (o, Op.num, x) ∈ (b.thr i).out) :
    x = .num (some (if (obj o).precise then parse (obj o).text else val o)) :=
  (shInv_reach (shInv_start ha) hr).on i o x hx

/-- **C139, part: text.** The text is right in any order of the accesses. -/
theorem C139_text {a b : St ν} (ha : Start parse obj val a) {weak : Bool} (hr : Reach parse obj weak a b) (i o : Nat)
    (x : Out ν) (hx : (o, Op.text, x) ∈ (b.thr i).out) : x = .text (obj o).text :=
  (sh_text (fun j p y hy => by rw [(ha.2.2 j).2] at hy; cases hy) (fun j p => by rw [(ha.2.2 j).1]; nofun) hr).1 i o x hx

/-- **C139, part.** No race, and nothing is written at all, when every precise number that threads read as a number has
been read before it was shared (or was made with its value). What is missing: numbers parsed from a text with fraction or
exponent that nobody has read yet (see the violations). -/
theorem C139_no_race_partial {a b : St ν} (hi : ∀ i, (a.thr i).pc = .idle)
    (hw : ∀ i o, (o, Op.num) ∈ (a.thr i).ops → (obj o).precise = true → (a.cell o).cached = true)
    {weak : Bool} (hr : Reach parse obj weak a b) : ¬ Race b ∧ b.cell = a.cell := by
  obtain ⟨_, _, h, hc⟩ := sh_norace hw hi hr
  refine ⟨?_, hc⟩
  rintro ⟨i, j, o, f, w, _, h1, _⟩
  have := h i
  cases hp : (b.thr i).pc <;> rw [hp] at h1 <;> simp only [uses, Option.some.injEq, Prod.mk.injEq, reduceCtorEq] at h1 <;> grind

/-- **C139, part.** A number that has been read once is cached: threads that get it later find the situation of
`C139_no_race_partial`. -/
theorem C139_warm {a b : St ν} (ha : Start parse obj val a) {weak : Bool} (hr : Reach parse obj weak a b) (i o : Nat)
    (x : Out ν) (hp : (obj o).precise = true) (hx : (o, Op.num, x) ∈ (b.thr i).out) : (b.cell o).cached = true :=
  (sh_warm (fun j p y hy => by rw [(ha.2.2 j).2] at hy; cases hy) (fun j p => by rw [(ha.2.2 j).1]; nofun)
    (fun j p => by rw [(ha.2.2 j).1]; nofun) hr).1 i o x hx hp
end

/-! ### Witnesses -/

/-- One number `1.5` made from its text; threads 0 and 1 are given `ops0`, `ops1`. -/
def shObj : Nat → Obj := fun _ => ⟨true, [49, 46, 53]⟩
/-- Number of the text: here its length. -/
def shParse (s : Bytes) : Nat := s.length
/-- State before the threads start. -/
def shSt (ops0 ops1 : List (Nat × Op)) : St Nat :=
  ⟨fun _ => ⟨none, false⟩, fun i => ⟨if i = 0 then ops0 else if i = 1 then ops1 else [], .idle, []⟩⟩

theorem shSt_start (a b : List (Nat × Op)) : Start shParse shObj (fun _ => 0) (shSt a b) :=
  ⟨fun _ _ => .inl rfl, fun _ h => by simp [shObj] at h, fun _ => ⟨rfl, rfl⟩⟩

-- Hypotheses of `C139_number`, `C139_text`, `C139_warm` hold in this run; both threads read and both get the number.
example : ∃ s, Start shParse shObj (fun _ => 0) (shSt [(0, .num)] [(0, .text)]) ∧
    Reach shParse shObj false (shSt [(0, .num)] [(0, .text)]) s ∧ (shObj 0).precise = true ∧
    (0, Op.num, Out.num (some 3)) ∈ (s.thr 0).out ∧ (0, Op.text, Out.text [49, 46, 53]) ∈ (s.thr 1).out :=
  ⟨_, shSt_start _ _, .step _ _ _ (.step _ _ _ (.step _ _ _ (.step _ _ _ (.step _ _ _ (.step _ _ _ (.step _ _ _ (.refl _)
    (.startNum _ 0 0 [] rfl rfl)) (.startText _ 1 0 [] rfl rfl)) (.test _ 0 0 rfl)) (.readText _ 1 0 rfl)) (.fill _ 0 0 rfl))
    (.flag _ 0 0 rfl)) (.read _ 0 0 .num rfl), rfl, .head _, .head _⟩

-- Hypotheses of `C139_no_race_partial`: two threads read a number that is cached.
example : ∃ a : St Nat, (∀ i, (a.thr i).pc = .idle) ∧ (a.thr 0).ops = [(0, .num)] ∧ (a.thr 1).ops = [(0, .num)] ∧
    (∀ i o, (o, Op.num) ∈ (a.thr i).ops → (shObj o).precise = true → (a.cell o).cached = true) :=
  ⟨⟨fun _ => ⟨some 3, true⟩, fun _ => ⟨[(0, .num)], .idle, []⟩⟩, fun _ => rfl, rfl, rfl, fun _ _ _ _ => rfl⟩

/-- **C139, violation.** Two threads that ask a shared number parsed from `1.5` for its value reach a data race: both have
found it not cached and are about to store `n`. A data race is undefined behaviour, although sharing of values is said to
need no synchronisation. -/
theorem C139_violation_race (weak : Bool) :
    ∃ s, Reach shParse shObj weak (shSt [(0, .num)] [(0, .num)]) s ∧ Race s :=
  ⟨_, .step _ _ _ (.step _ _ _ (.step _ _ _ (.step _ _ _ (.refl _) (.startNum _ 0 0 [] rfl rfl))
    (.startNum _ 1 0 [] rfl rfl)) (.test _ 0 0 rfl)) (.test _ 1 0 rfl), 0, 1, 0, .n, true, by decide, rfl, rfl⟩

/-- **C139, violation.** When the two stores of `cacheValue` take effect in the other order, which nothing forbids, a thread
reads a number that has not been set. -/
theorem C139_violation_order :
    ∃ s, Reach shParse shObj true (shSt [(0, .num)] [(0, .num)]) s ∧ (0, Op.num, Out.num none) ∈ (s.thr 1).out :=
  ⟨_, .step _ _ _ (.step _ _ _ (.step _ _ _ (.step _ _ _ (.step _ _ _ (.step _ _ _ (.refl _) (.startNum _ 0 0 [] rfl rfl))
    (.test _ 0 0 rfl)) (.flagFirst _ 0 0 rfl rfl)) (.startNum _ 1 0 [] rfl rfl)) (.test _ 1 0 rfl)) (.read _ 1 0 .num rfl),
    .head _⟩

/-- **C139, violation.** What `getBool` of a shared number gives to one thread depends on whether another thread has asked
for its value already: the number is read as set or as indeterminate, although no access overlaps another. -/
theorem C139_violation_bool :
    (∃ s, Reach shParse shObj false (shSt [(0, .num)] [(0, .bool)]) s ∧ (s.thr 1).out = [(0, .bool, .num none)]) ∧
    (∃ s, Reach shParse shObj false (shSt [(0, .num)] [(0, .bool)]) s ∧ (s.thr 1).out = [(0, .bool, .num (some 3))]) :=
  ⟨⟨_, .step _ _ _ (.step _ _ _ (.refl _) (.startBool _ 1 0 [] rfl rfl)) (.read _ 1 0 .bool rfl), rfl⟩,
   ⟨_, .step _ _ _ (.step _ _ _ (.step _ _ _ (.step _ _ _ (.step _ _ _ (.step _ _ _ (.step _ _ _ (.refl _)
    (.startNum _ 0 0 [] rfl rfl)) (.test _ 0 0 rfl)) (.fill _ 0 0 rfl)) (.flag _ 0 0 rfl)) (.read _ 0 0 .num rfl))
    (.startBool _ 1 0 [] rfl rfl)) (.read _ 1 0 .bool rfl), rfl⟩⟩

end Imt.Props
