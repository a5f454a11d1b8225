import Verif.Model.BinDepth
import Verif.Lemmas.BinSafe
import Verif.Props.ParserDepth
/-!
# C163 — reading binary documents needs a bounded stack
-/
namespace Imt.Props
open Imt Imt.BinJson

/-- What is written for one call is the call of the model of C18 and C21. -/
theorem itemBody_same (env : Env) (f : Nat) (ps : PS) :
    parseItem env (f + 1) ps = itemBody env (parseItem env f) (parseItems env f) ps := by
  rw [parseItem]; rfl

/-- Equal, or (if `Q`) the first is the end of the stack. -/
def LeQ (Q : Prop) {α : Type} (x y : Res α) : Prop := (Q ∧ x = .abort) ∨ x = y

theorem LeQ.refl {Q : Prop} {α : Type} (x : Res α) : LeQ Q x x := .inr rfl

theorem LeQ.bind {Q : Prop} {α β : Type} {x y : Res α} {f g : α → Res β} (h : LeQ Q x y) (hf : ∀ a, y = .ok a → LeQ Q (f a) (g a)) :
    LeQ Q (x >>= f) (y >>= g) := by
  rcases h with ⟨q, rfl⟩ | rfl
  · exact .inl ⟨q, rfl⟩
  · cases x with
    | ok a => exact hf a rfl
    | _ => exact .inr rfl

theorem LeQ.ite {Q : Prop} {α : Type} {p : Prop} [Decidable p] {a b c d : Res α} (h : LeQ Q a b) (h2 : LeQ Q c d) :
    LeQ Q (if p then a else c) (if p then b else d) := by
  by_cases hp : p
  · rw [if_pos hp, if_pos hp]; exact h
  · rw [if_neg hp, if_neg hp]; exact h2

theorem post_ok {α : Type} {U F : Prop} {P : α → Prop} {x : Res α} {a : α} (h : Post U F P x) (e : x = .ok a) : P a := by
  subst e; exact h

/-- The state `b` is behind the state `a`, at least one byte if the source throws at its end. -/
def Behind (env : Env) (a b : PS) : Prop :=
  Bytes.Valid b.s ∧ b.s.length ≤ a.s.length ∧ (env.eofThrows = true → b.s.length < a.s.length)

theorem itemBody_le (Q : Prop) (env : Env) (ps : PS) (hv : Bytes.Valid ps.s) {i j : PS → Res (BV × PS)}
    {is js : Nat → Nat → PS → Res (List BV × PS)} (h1 : ∀ p, Behind env ps p → LeQ Q (i p) (j p))
    (h2 : ∀ n m p, Behind env ps p → LeQ Q (is n m p) (js n m p)) : LeQ Q (itemBody env i is ps) (itemBody env j js ps) := by
  unfold itemBody
  refine (LeQ.refl _).bind fun t et => ?_
  obtain ⟨_, hs, hl, _⟩ := post_ok (next_post env ps hv) et
  have ht : Behind env ps t.2 := ⟨hs.all hv, hs.len, hl⟩
  have later : ∀ {q : PS}, Suf t.2 q → Behind env ps q := fun {q} h =>
    ⟨h.all ht.1, Nat.le_trans h.len ht.2.1, fun e => Nat.lt_of_le_of_lt h.len (ht.2.2 e)⟩
  have cont : ∀ (tag : Nat) (q : PS) (sh : Shape), Suf t.2 q → LeQ Q
      (do let n ← parseInteger env tag q
          let slots ← allocArr env n.1
          let r ← is n.1 slots n.2
          pure (BV.node [] sh r.1, r.2))
      (do let n ← parseInteger env tag q
          let slots ← allocArr env n.1
          let r ← js n.1 slots n.2
          pure (BV.node [] sh r.1, r.2)) := by
    intro tag q sh hq
    refine (LeQ.refl _).bind fun n en => ?_
    have hn := post_ok (parseInteger_post env tag q (hq.all ht.1)) en
    exact (LeQ.refl _).bind fun slots _ => (h2 _ _ _ (later (hq.trans hn.2.2))).bind fun _ _ => LeQ.refl _
  dsimp only
  generalize ht16 : t.1 / 16 = k
  match k with
  | 0 =>
    refine LeQ.ite (LeQ.refl _) (LeQ.ite (LeQ.refl _) (LeQ.ite (LeQ.refl _) (LeQ.ite (LeQ.refl _) (LeQ.ite (LeQ.refl _)
      (LeQ.ite (LeQ.refl _) (LeQ.ite ?_ (LeQ.refl _)))))))
    refine (LeQ.refl _).bind fun o eo => ?_
    have ho := post_ok (next_post env t.2 ht.1) eo
    exact LeQ.ite (cont _ _ _ ho.2.1) (LeQ.refl _)
  | 1 => exact LeQ.refl _
  | 2 => exact LeQ.refl _
  | 3 => exact LeQ.refl _
  | 4 => exact LeQ.refl _
  | 5 => exact cont _ _ _ Suf.rfl
  | 6 => exact cont _ _ _ Suf.rfl
  | 7 =>
    refine (LeQ.refl _).bind fun a ea => ?_
    have ha := post_ok (parseString_post True env _ _ _ ht.1 (.inl trivial)) ea
    refine (LeQ.refl _).bind fun b eb => ?_
    have hb := post_ok (storeKey_post True _ _ (.inl trivial)) eb
    have hb2 : Behind env ps b := by
      have := later ha
      unfold Behind at this ⊢
      rwa [hb.1]
    exact (h1 _ hb2).bind fun _ _ => LeQ.refl _
  | k + 8 => exact (h1 _ ht).bind fun _ _ => LeQ.refl _

theorem after_valid {α : Type} {U : Prop} {env : Env} {b : Bool} {ps : PS} {r : α × PS} (hv : Bytes.Valid ps.s)
    (h : After U env b ps r) : Bytes.Valid r.2.s := by
  obtain ⟨t, e⟩ := h.1
  intro x hx
  exact hv x (by rw [e]; simp [hx])

theorem after_len {α : Type} {U : Prop} {env : Env} {b : Bool} {ps : PS} {r : α × PS} (h : After U env b ps r) :
    r.2.s.length ≤ ps.s.length := by
  obtain ⟨t, e⟩ := h.1
  rw [e]
  simp

theorem parseItemD_le (env : Env) (f : Nat) : ∀ lim,
    (∀ ps, Bytes.Valid ps.s → LeQ True (parseItemD env lim f ps) (parseItem env f ps)) ∧
    (∀ n m ps, Bytes.Valid ps.s → LeQ True (parseItemsD env lim f n m ps) (parseItems env f n m ps)) := by
  induction f with
  | zero =>
    intro lim
    refine ⟨fun ps _ => ?_, fun n m ps _ => .inr (by rw [parseItemsD, parseItems])⟩
    cases lim with
    | zero => exact .inl ⟨trivial, by rw [parseItemD]⟩
    | succ l => exact .inr (by rw [parseItemD, parseItem])
  | succ f ih =>
    intro lim
    refine ⟨fun ps hv => ?_, fun n m ps hv => ?_⟩
    · cases lim with
      | zero => exact .inl ⟨trivial, by rw [parseItemD]⟩
      | succ l =>
        rw [parseItemD, itemBody_same]
        exact itemBody_le True env ps hv (fun p hp => (ih l).1 p hp.1) (fun n m p hp => (ih l).2 n m p hp.1)
    · cases n with
      | zero => exact .inr (by rw [parseItemsD, parseItems])
      | succ n =>
        rw [parseItemsD, parseItems]
        refine ((ih lim).1 ps hv).bind fun v ev => LeQ.ite (LeQ.refl _) ?_
        have hp := post_ok (parseItem_post True True env f ps hv (.inl trivial) (.inl trivial)) ev
        exact ((ih lim).2 n _ v.2 (after_valid hv hp)).bind fun _ _ => LeQ.refl _

theorem parseItemD_enough (env : Env) (he : env.eofThrows = true) (f : Nat) : ∀ lim,
    (∀ ps, Bytes.Valid ps.s → ps.s.length < lim → parseItemD env lim f ps = parseItem env f ps) ∧
    (∀ n m ps, Bytes.Valid ps.s → ps.s.length < lim → parseItemsD env lim f n m ps = parseItems env f n m ps) := by
  have un : ∀ {α : Type} {x y : Res α}, LeQ False x y → x = y := fun h => h.elim (fun h => h.1.elim) id
  induction f with
  | zero =>
    intro lim
    refine ⟨fun ps _ hl => ?_, fun n m ps _ _ => by rw [parseItemsD, parseItems]⟩
    obtain ⟨l, rfl⟩ : ∃ k, lim = k + 1 := ⟨lim - 1, by omega⟩
    rw [parseItemD, parseItem]
  | succ f ih =>
    intro lim
    refine ⟨fun ps hv hl => ?_, fun n m ps hv hl => ?_⟩
    · obtain ⟨l, rfl⟩ : ∃ k, lim = k + 1 := ⟨lim - 1, by omega⟩
      rw [parseItemD, itemBody_same]
      exact un (itemBody_le False env ps hv (fun p hp => .inr ((ih l).1 p hp.1 (by have := hp.2.2 he; omega)))
        (fun n m p hp => .inr ((ih l).2 n m p hp.1 (by have := hp.2.2 he; omega))))
    · cases n with
      | zero => rw [parseItemsD, parseItems]
      | succ n =>
        rw [parseItemsD, parseItems, (ih lim).1 ps hv hl]
        refine bind_both fun v ev => ite_both (fun _ => rfl) fun _ => ?_
        have hp := post_ok (parseItem_post True True env f ps hv (.inl trivial) (.inl trivial)) ev
        rw [(ih lim).2 n _ v.2 (after_valid hv hp) (by have := after_len hp; omega)]

/-- C163: on a finite stack the binary parser either exhausts the stack or does what it does on an unlimited one. -/
theorem C163_binary_same (env : Env) (lim f : Nat) (s : Bytes) (hv : Bytes.Valid s) :
    parseBinaryD env lim f s = .abort ∨ parseBinaryD env lim f s = parseBinary env f s := by
  rcases (parseItemD_le env f lim).1 ⟨s, [], 0⟩ hv with ⟨_, h⟩ | h
  · exact .inl h
  · exact .inr h

/-- C163 (partial): a stack with room for one call more than the input has bytes is enough for the binary parser. Missing: a
bound that does not grow with the input (`C163_violation_binary`); sources that do not throw at their end (C21). -/
theorem C163_binary_enough_partial (env : Env) (he : env.eofThrows = true) (lim f : Nat) (s : Bytes) (hv : Bytes.Valid s)
    (h : s.length < lim) : parseBinaryD env lim f s = parseBinary env f s :=
  (parseItemD_enough env he f lim).1 ⟨s, [], 0⟩ hv h

example : Bytes.Valid [0x61, 0x61, 0x01] ∧
    parseBinaryD { f64 := fun n => n } 4 7 [0x61, 0x61, 0x01] = .ok (.node [] .arr [.node [] .arr [.node [] .null []]], ⟨[], [], 0⟩) ∧
    parseBinaryD { f64 := fun n => n } 2 7 [0x61, 0x61, 0x01] = .abort := ⟨by decide, rfl, rfl⟩

/-- C163 fails for the binary parser: whatever the stack is, that many heads of arrays exhaust it, whatever follows. -/
theorem C163_violation_binary (env : Env) (ha : env.avail (env.objArr + 8) = true) (hb : env.objArr + 8 < 2 ^ 64) (lim n f : Nat)
    (h : lim ≤ n) (hf : 2 * n < f) (t : Bytes) : parseBinaryD env lim f (List.replicate n 0x61 ++ t) = .abort := by
  unfold parseBinaryD
  have key : ∀ (lim n f : Nat) (hist : List Bytes) (ki : Nat), lim ≤ n → 2 * n < f →
      parseItemD env lim f ⟨List.replicate n 0x61 ++ t, hist, ki⟩ = .abort := by
    intro lim
    induction lim with
    | zero => intro n f _ _ _ _; rw [parseItemD]
    | succ l ih =>
      intro n f hist ki hn hf
      obtain ⟨n, rfl⟩ : ∃ k, n = k + 1 := ⟨n - 1, by omega⟩
      obtain ⟨f, rfl⟩ : ∃ k, f = k + 2 := ⟨f - 2, by omega⟩
      rw [parseItemD, itemBody]
      have e1 : next env ⟨List.replicate (n + 1) 0x61 ++ t, hist, ki⟩ = .ok (0x61, ⟨List.replicate n 0x61 ++ t, hist, ki⟩) := rfl
      have e2 : ∀ q, parseInteger env 0x61 q = .ok (1, q) := fun q => rfl
      have e3 : allocArr env 1 = .ok 1 := by
        unfold allocArr
        simp only [Nat.one_mul, Nat.mod_eq_of_lt hb, ha]
        rw [if_neg (by simp), if_neg (by omega)]
        congr 1
        omega
      rw [e1]
      simp only [Res.bind_ok]
      show (do let n ← parseInteger env 0x61 _; _) = _
      rw [e2]
      simp only [Res.bind_ok]
      rw [e3]
      simp only [Res.bind_ok]
      rw [parseItemsD, ih n f hist ki (by omega) (by omega)]
      rfl
  exact key lim n f [] 0 h hf

example : (fun n => decide (n < 2 ^ 40)) (48 + 8) = true ∧ 48 + 8 < 2 ^ 64 ∧ (3 : Nat) ≤ 5 ∧ 2 * 5 < 11 := by decide

/-- C163 fails for the binary parser even without containers: each reference to a known key is a call inside of the other, so a
value as small as `null` behind enough of them exhausts the stack; one call more is just enough. -/
theorem C163_violation_binary_keys (env : Env) (lim n f : Nat) (hf : n < f) :
    parseBinaryD env lim f (List.replicate n 0x80 ++ [0x01]) = (if lim ≤ n then .abort else .ok (.node [] .null [], ⟨[], [], 0⟩)) := by
  unfold parseBinaryD
  induction n generalizing lim f with
  | zero =>
    obtain ⟨f, rfl⟩ : ∃ k, f = k + 1 := ⟨f - 1, by omega⟩
    cases lim with
    | zero => rw [parseItemD, if_pos (by omega)]
    | succ l => rw [parseItemD, if_neg (by omega)]; rfl
  | succ n ih =>
    obtain ⟨f, rfl⟩ : ∃ k, f = k + 1 := ⟨f - 1, by omega⟩
    cases lim with
    | zero => rw [parseItemD, if_pos (by omega)]
    | succ l =>
      rw [parseItemD, itemBody]
      have e1 : next env ⟨List.replicate (n + 1) 0x80 ++ [0x01], [], 0⟩ = .ok (0x80, ⟨List.replicate n 0x80 ++ [0x01], [], 0⟩) := rfl
      rw [e1]
      simp only [Res.bind_ok]
      show (do let v ← parseItemD env l f ⟨List.replicate n 0x80 ++ [0x01], [], 0⟩; _) = _
      rw [ih l f (by omega)]
      by_cases h : l ≤ n
      · rw [if_pos h, if_pos (by omega)]; rfl
      · rw [if_neg h, if_neg (by omega)]; rfl

example : (4 : Nat) < 5 := by decide

end Imt.Props
