import Verif.Model.RpcMulti
import Verif.Props.RpcClient
/-!
# C143: a multicall makes the listed calls; parameters are lists
-/
namespace Imt.Props
open Imt Imt.Spec Imt.Obj Imt.ObjB Imt.Rpc

/-! ### Parameters -/

/-- C143: parameters of a request are an array, or an object where the flag allows it; arrays are kept, nothing becomes the empty array, anything
else becomes the only item. -/
theorem C143_params (named : Bool) (p : JV) :
    ((∃ l, normParams named p = .arr l) ∨ (named = true ∧ ∃ l, normParams named p = .obj l ∧ p = .obj l)) ∧
    (∀ l, p = .arr l → normParams named p = p) ∧
    normParams named .undef = .arr [] ∧
    (isDef p = true → (∀ l, p ≠ .arr l) → (named = false ∨ ∀ l, p ≠ .obj l) → normParams named p = .arr [p]) ∧
    normParams named (normParams named p) = normParams named p := by
  refine ⟨?_, ?_, rfl, ?_, ?_⟩
  · cases p <;> cases named <;> simp [normParams, arr1]
  · rintro l rfl; rfl
  · intro hd ha ho
    cases p with
    | arr l => exact absurd rfl (ha l)
    | obj l =>
      cases named with
      | false => rfl
      | true => rcases ho with h | h; cases h; exact absurd rfl (h l)
    | undef => cases hd
    | null => rfl
    | bool b => rfl
    | num n => rfl
    | str t => rfl
  · cases p <;> cases named <;> simp [normParams, arr1]

example : isDef (.str [65]) = true ∧ (∀ l, JV.str [65] ≠ .arr l) ∧ ∀ l, JV.str [65] ≠ .obj l := ⟨rfl, nofun, nofun⟩

/-- C143: a request made from a list has its items in place; missing ones are undefined. -/
theorem C143_list (m p i c v : JV) : ofList [m, p, i, c, v] = ⟨m, p, i, c, v⟩ ∧ ofList [m, p] = ⟨m, p, .undef, .undef, .undef⟩ ∧
    ofList [] = ⟨.undef, .undef, .undef, .undef, .undef⟩ := ⟨rfl, rfl, rfl⟩

/-! ### Calls -/

theorem draw_same (n : Bytes) : ∀ (rest pre : List JV) (fuel : Nat), rest.length < fuel →
    draw (nextSame (.arr (.str n :: pre ++ rest))) fuel (pre.length + 1) = rest.map (fun p => (.str n, p)) := by
  intro rest
  induction rest with
  | nil =>
    intro pre fuel hf
    obtain ⟨f, rfl⟩ : ∃ f, fuel = f + 1 := ⟨fuel - 1, by omega⟩
    have : ¬ pre.length + 1 < sizeOf' (.arr (.str n :: pre ++ [])) := by simp [sizeOf']
    simp only [draw, nextSame, this, if_false]
    rfl
  | cons p r ih =>
    intro pre fuel hf
    obtain ⟨f, rfl⟩ : ∃ f, fuel = f + 1 := ⟨fuel - 1, by simp at hf; omega⟩
    have h1 : pre.length + 1 < sizeOf' (.arr (.str n :: pre ++ p :: r)) := by simp [sizeOf']
    have h2 : itemAt (.arr (.str n :: pre ++ p :: r)) 0 = .str n := rfl
    have h3 : itemAt (.arr (.str n :: pre ++ p :: r)) (pre.length + 1) = p := by
      simp [itemAt]
    simp only [draw, nextSame, h1, if_true, h2, h3]
    have h4 : isDef (.str n) = true := rfl
    rw [if_pos h4]
    have := ih (pre ++ [p]) f (by simp at hf; omega)
    simp only [List.length_append, List.length_cons, List.length_nil, List.append_assoc, List.cons_append, List.nil_append, Nat.zero_add] at this
    rw [List.cons_append, this]
    rfl

/-- C143: a name followed by parameters calls that method once for each, in order. -/
theorem C143_same (n : Bytes) (ps : List JV) :
    multicall (.arr (.str n :: ps)) = .calls (ps.map fun p => (.str n, p)) := by
  have h := draw_same n ps [] (ps.length + 1 + 1) (by omega)
  simp only [List.length_nil, Nat.zero_add, List.cons_append, List.nil_append] at h
  have h0 : sizeOf' (.arr (.str n :: ps)) = ps.length + 1 := rfl
  have h1 : itemAt (.arr (.str n :: ps)) 0 = .str n := rfl
  simp only [multicall, h0, h1, Nat.succ_ne_zero, if_false, h]

/-- The pair says which method to call. -/
def mcNamed (v : JV) : Bool := isDef (itemAt v 0)

/-- The call of a pair. -/
def mcCall (v : JV) : JV × JV := (itemAt v 0, itemAt v 1)

theorem draw_pair : ∀ (rest pre : List JV) (fuel : Nat), rest.length < fuel →
    draw (nextPair (.arr (pre ++ rest))) fuel pre.length = (rest.takeWhile mcNamed).map mcCall := by
  intro rest
  induction rest with
  | nil =>
    intro pre fuel hf
    obtain ⟨f, rfl⟩ : ∃ f, fuel = f + 1 := ⟨fuel - 1, by omega⟩
    have : ¬ pre.length < sizeOf' (.arr (pre ++ [])) := by simp [sizeOf']
    simp only [draw, nextPair, this, if_false]
    rfl
  | cons p r ih =>
    intro pre fuel hf
    obtain ⟨f, rfl⟩ : ∃ f, fuel = f + 1 := ⟨fuel - 1, by simp at hf; omega⟩
    have h1 : pre.length < sizeOf' (.arr (pre ++ p :: r)) := by simp [sizeOf']
    have h3 : itemAt (.arr (pre ++ p :: r)) pre.length = p := by simp [itemAt]
    simp only [draw, nextPair, h1, if_true, h3, List.takeWhile_cons]
    cases hn : mcNamed p with
    | false =>
      have hd : isDef (itemAt p 0) = false := hn
      rw [hd]
      rfl
    | true =>
      have hd : isDef (itemAt p 0) = true := hn
      rw [hd]
      have := ih (pre ++ [p]) f (by simp at hf; omega)
      simp only [List.length_append, List.length_cons, List.length_nil, List.append_assoc, List.cons_append, List.nil_append,
        Nat.zero_add] at this
      simp only [if_true, List.map_cons, this]
      rfl

/-- C143: pairs of a name and parameters are called in order – up to the first one without a name. -/
theorem C143_pairs (l rest : List JV) : multicall (.arr (.arr l :: rest)) = .calls (((.arr l :: rest).takeWhile mcNamed).map mcCall) := by
  have h := draw_pair (.arr l :: rest) [] (rest.length + 1 + 1) (by simp)
  have h0 : sizeOf' (.arr (.arr l :: rest)) = rest.length + 1 := rfl
  have h1 : itemAt (.arr (.arr l :: rest)) 0 = .arr l := rfl
  simp only [List.length_nil, List.nil_append] at h
  simp only [multicall, h0, h1, Nat.succ_ne_zero, if_false, h]

/-- C143: a pair without parameters – also one given as an object – is called with undefined ones; an empty one ends the multicall. -/
theorem C143_short (k a b : Bytes) (rest : List JV) :
    multicall (.arr ([.arr [.str a], .obj [(k, .str b)]] ++ .obj [] :: rest)) = .calls [(.str a, .undef), (.str b, .undef)] ∧
    multicall (.obj [(k, .str a), (k, .str b)]) = .calls [(.str a, .str b)] := by
  refine ⟨?_, rfl⟩
  rw [List.cons_append, C143_pairs]
  rfl

/-- C143 (partial: every pair has a name): all pairs are called, in order. -/
theorem C143_all_partial (l rest : List JV) (h : ∀ p ∈ (JV.arr l :: rest), mcNamed p = true) :
    multicall (.arr (.arr l :: rest)) = .calls ((.arr l :: rest).map mcCall) := by
  have hw : ∀ x : List JV, (∀ p ∈ x, mcNamed p = true) → x.takeWhile mcNamed = x := by
    intro x
    induction x with
    | nil => intro _; rfl
    | cons a r ih =>
      intro hx
      rw [List.takeWhile_cons, hx a List.mem_cons_self, if_pos rfl, ih fun p hp => hx p (List.mem_cons_of_mem _ hp)]
  rw [C143_pairs, hw _ h]

example : ∀ p ∈ [JV.arr [.str [97], .arr [.null]], .arr [.str [98]]], mcNamed p = true := by
  simp [mcNamed, itemAt, isDef, defd]

/-- C143: a multicall is refused exactly when it has no arguments or the first is neither a string nor an array. -/
theorem C143_refused (args : JV) : (∃ c m, multicall args = .refuse c m) ↔
    sizeOf' args = 0 ∨ ((∀ s, itemAt args 0 ≠ .str s) ∧ ∀ l, itemAt args 0 ≠ .arr l) := by
  unfold multicall
  by_cases h : sizeOf' args = 0
  · rw [if_pos h]
    exact ⟨fun _ => .inl h, fun _ => ⟨_, _, rfl⟩⟩
  · rw [if_neg h]
    cases itemAt args 0 <;> simp [h]

/-- Arguments by position: items of a list, values of the members of an object. -/
def argList : JV → List JV
  | .arr l => l
  | .obj m => m.map (·.2)
  | _ => []

/-- C143: the two refusals, told apart: no arguments at all; a first argument which is neither a string nor an array. -/
theorem C143_refusals (args : JV) :
    (argList args = [] → multicall args = .refuse (-32602) (ascii "Empty arguments")) ∧
    ∀ a rest, argList args = a :: rest → (∀ t, a ≠ .str t) → (∀ l, a ≠ .arr l) →
      multicall args = .refuse (-32602) (ascii "The first argument must be either string or array") := by
  constructor
  · intro h
    unfold multicall
    rw [if_pos]
    cases args <;> simp_all [argList, sizeOf']
  · intro a rest h h1 h2
    unfold multicall
    have hs : sizeOf' args ≠ 0 := by
      cases args <;> simp_all [argList, sizeOf']
      rintro rfl
      simp at h
    have hi : itemAt args 0 = a := by
      cases args with
      | arr l => simp only [argList] at h; subst h; rfl
      | obj m => simp only [argList] at h; simp only [itemAt, h]; rfl
      | _ => simp [argList] at h
    rw [if_neg hs, hi]
    cases a <;> simp_all

example : argList .null = [] ∧ argList (.arr [.null]) = [.null] := ⟨rfl, rfl⟩

/-- C143: each call sees the identifier, version and context of the multicall and its parameters as a list. -/
theorem C143_call (req : Parsed) (ctx : JV) (c : JV × JV) :
    (subReq req ctx c).method = c.1 ∧ (subReq req ctx c).id = req.id ∧ (subReq req ctx c).version = req.version ∧
    (subReq req ctx c).context = ctx ∧ ∃ l, (subReq req ctx c).params = .arr l ∧ (∀ q, c.2 = .arr q → l = q) := by
  refine ⟨rfl, rfl, rfl, rfl, ?_⟩
  obtain ⟨n, p⟩ := c
  cases p with
  | arr q => exact ⟨q, rfl, fun q' h => by cases h; rfl⟩
  | _ => exact ⟨_, rfl, nofun⟩

/-- C143 with the answers (partial: one defined answer for each call): `results` has an entry for each pair of the request, in their order. -/
theorem C143_results_partial (beh : JV × JV → Ans) (hb : ∀ c, AnsDef (beh c)) (n : Bytes) (ps : List JV) (f : Nat) (hf : ps.length + 5 ≤ f) :
    ∃ l s', multicall (.arr (.str n :: ps)) = .calls l ∧
      (mrun f { todo := l.map fun c => .now [beh c] } >>= deliver f) = .ok s' ∧
      s'.sent.map (·.1) = [build [(ascii "results", .arr (ps.map fun p => ansValue (beh (.str n, p)))),
        (ascii "errors", .arr (ps.flatMap fun p => ansErrs (beh (.str n, p))))]] := by
  have hs : ((ps.map fun p => (JV.str n, p)).map fun c => Sub.now [beh c]).map single = (ps.map fun p => beh (.str n, p)).map some := by
    simp only [List.map_map]
    rfl
  obtain ⟨s', e1, e2⟩ := C87_multicall_partial _ _ hs (by
    intro a ha
    obtain ⟨p, _, rfl⟩ := List.mem_map.1 ha
    exact hb _) f (by simpa using hf)
  refine ⟨_, s', C143_same n ps, e1, ?_⟩
  rw [e2, multiResult, List.map_map, List.flatMap_map]
  rfl

example : ∀ c : JV × JV, AnsDef ((fun _ => Ans.result .null .undef) c) := fun _ => rfl

/-- C143 does not hold for a pair without a name: an empty array, or any value that is not a container, ends the multicall as if there were no
more pairs (rpc.cpp:388, 428) – the calls after it are silently not made. -/
theorem C143_violation_stops (n p m q : JV) (hn : isDef n = true) :
    multicall (.arr [.arr [n, p], .arr [], .arr [m, q]]) = .calls [(n, p)] := by
  rw [C143_pairs]
  have h1 : mcNamed (.arr [n, p]) = true := hn
  have h2 : mcNamed (.arr []) = false := rfl
  simp only [List.takeWhile_cons, h1, h2, if_true, Bool.false_eq_true, if_false, List.map_cons, List.map_nil]
  rfl

example : isDef (.str [97]) = true := rfl

end Imt.Props
