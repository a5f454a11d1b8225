import Verif.Model.RpcError
import Verif.Props.RpcWire
/-!
# Errors reach the caller with code, message and data (C145)
-/
namespace Imt.Props
open Imt Imt.Spec Imt.Obj Imt.ObjB Imt.Rpc Imt.Parser

/-- Range of `int`. -/
def IsInt32 (i : Int) : Prop := -2 ^ 31 ≤ i ∧ i < 2 ^ 31

theorem wrap32_id {i : Int} (h : IsInt32 i) : Conv.wrap32 i = i := by
  unfold Conv.wrap32
  unfold IsInt32 at h
  split <;> omega

theorem getInt_int (fp : Conv.FP) (i : Int) : Conv.getInt fp (.num (.int i)) = .ok i := rfl
theorem getInt_uint (fp : Conv.FP) {n : Nat} (h : n < 2 ^ 63) : Conv.getInt fp (.num (.uint n)) = .ok n := by
  show Res.ok (Conv.wrapS n) = .ok (n : Int)
  unfold Conv.wrapS
  congr 1
  split <;> omega

/-- The error object: what it must say. -/
def Says (fp : Conv.FP) (code : Int) (msg : Bytes) (data : JV) (r : Result) : Prop :=
  errorCode fp r = .ok code ∧ errorMessage r = msg ∧ errorData r = data

theorem defaultFmt_build (code : Int) (msg : Bytes) (data : JV) :
    defaultFmt code msg data = build [(ascii "code", .num (.int code)), (ascii "message", .str msg), (ascii "data", data)] := by
  unfold defaultFmt build
  congr 1
  obtain ⟨h1, h2⟩ := build_spec [(ascii "code", .num (.int code)), (ascii "message", .str msg), (ascii "data", data)]
  refine eq_of_lookup_eq (mkObject_sorted _ _ _) h1 fun k => ?_
  rw [h2, lookup_eq_lastVal (mkObject_sorted _ _ _), mkObject_lastVal]
  unfold kept
  have hi : (fun m : Bytes × JV => isDef m.2) = fun m => defd m.2 := rfl
  cases hd : defd data with
  | true =>
    simp only [if_true, List.filter_cons, isDef, hd, List.filter_nil, show defd (.num (.int code)) = true from rfl, show defd (.str msg) = true from rfl]
    cases hl : lastVal [(ascii "code", JV.num (.int code)), (ascii "message", .str msg), (ascii "data", data)] k with
    | none => rfl
    | some v =>
      have : defd v = true := by
        have := lastVal_mem hl
        simp only [List.mem_cons, List.not_mem_nil, or_false, Prod.mk.injEq] at this
        rcases this with ⟨_, e⟩ | ⟨_, e⟩ | ⟨_, e⟩ <;> subst e
        · rfl
        · rfl
        · exact hd
      simp [Option.filter, this]
  | false =>
    simp only [if_true, List.filter_cons, isDef, hd, List.filter_nil, show defd (.num (.int code)) = true from rfl, show defd (.str msg) = true from rfl,
      Bool.false_eq_true, if_false, lastVal]
    by_cases e1 : ascii "data" = k
    · subst e1
      simp [Option.filter, hd]
      rfl
    · rw [if_neg e1]
      by_cases e2 : ascii "message" = k
      · simp [e2, Option.filter, defd]
      · rw [if_neg e2]
        by_cases e3 : ascii "code" = k
        · simp [e3, Option.filter, defd]
        · simp [e3]

theorem says_build (fp : Conv.FP) {code : Int} (hc : IsInt32 code) (msg : Bytes) (data : JV) (b : Bool) :
    Says fp code msg data ⟨build [(ascii "code", .num (.int code)), (ascii "message", .str msg), (ascii "data", data)], b⟩ := by
  refine ⟨?_, ?_, ?_⟩
  · unfold errorCode
    rw [member_build, show lastVal [(ascii "code", JV.num (.int code)), (ascii "message", .str msg), (ascii "data", data)] (ascii "code") = some (.num (.int code)) from rfl,
      getD_filter, getInt_int]
    dsimp only
    rw [wrap32_id hc]
  · unfold errorMessage
    rw [member_build, show lastVal [(ascii "code", JV.num (.int code)), (ascii "message", .str msg), (ascii "data", data)] (ascii "message") = some (.str msg) from rfl, getD_filter]
  · unfold errorData
    rw [member_build, show lastVal [(ascii "code", JV.num (.int code)), (ascii "message", .str msg), (ascii "data", data)] (ascii "data") = some data from rfl, getD_filter]

/-- **C145.** The accessors of a result give back the code, message and data an error object was formed of, by the server or by `makeError`;
undefined data included. -/
theorem C145_object (fp : Conv.FP) (code : Int) (hc : IsInt32 code) (msg : Bytes) (data : JV) (b : Bool) :
    Says fp code msg data ⟨defaultFmt code msg data, b⟩ ∧ Says fp code msg data (makeError code msg data) ∧
      (makeError code msg data).error = true := by
  rw [defaultFmt_build]
  exact ⟨says_build fp hc msg data b, says_build fp hc msg data true, rfl⟩

example : IsInt32 (-32601) := by unfold IsInt32; omega

/-- **C145.** The message of any error object, also of a foreign server: the text of its member `message` if that is a string or a precise number,
otherwise nothing. -/
theorem C145_message (l : Members JV) (hs : StrictSorted l) (b : Bool) : errorMessage ⟨.obj l, b⟩ =
    match lookup l (ascii "message") with
    | some (.str s) => s
    | some (.num (.prec t _)) => t
    | _ => [] := by
  unfold errorMessage
  rw [memberOf_field hs]
  unfold field
  cases lookup l (ascii "message") with
  | none => rfl
  | some v =>
    dsimp only [Option.getD_some]
    cases v with
    | num n => cases n <;> rfl
    | _ => rfl

example : StrictSorted [(ascii "code", JV.num (.int 5)), (ascii "message", .str (ascii "x"))] := by decide

/-! ### What a failing method means -/

/-- The code of the report. -/
def failCode : Fail → Int
  | .error c _ _ => c
  | .arg _ => -32602
  | .argChecked _ => -32602
  | .internal _ => -32603

/-- Its message. -/
def failMsg : Fail → Bytes
  | .error _ m _ => m
  | .arg _ => ascii "Invalid params"
  | .argChecked _ => ascii "Invalid params"
  | .internal _ => ascii "Internal error"

/-- Its data; after checks of arguments: what the last failed one rejected, nothing if none failed. -/
def FailData : Fail → JV → Prop
  | .error _ _ d, x => x = d
  | .arg d, x => x = d
  | .argChecked l, x => ((∀ v ∈ l, v = .null ∨ v = .undef) ∧ x = .undef) ∨
      ∃ a d b, l = a ++ d :: b ∧ d ≠ .null ∧ d ≠ .undef ∧ (∀ v ∈ b, v = .null ∨ v = .undef) ∧ x = d
  | .internal (some w), x => x = .str w
  | .internal none, x => x = .undef

theorem passed_iff (v : JV) : (isNull v || !isDef v) = true ↔ v = .null ∨ v = .undef := by
  cases v <;> simp [isNull, isDef, defd]

theorem rejections_spec (l : List JV) : FailData (.argChecked l) (rejectionsAfter l) := by
  have key : ∀ (l : List JV) (r : JV), ((∀ v ∈ l, v = .null ∨ v = .undef) ∧
        l.foldl (fun r v => if isNull v || !isDef v then r else v) r = r) ∨
      ∃ a d b, l = a ++ d :: b ∧ d ≠ .null ∧ d ≠ .undef ∧ (∀ v ∈ b, v = .null ∨ v = .undef) ∧
        l.foldl (fun r v => if isNull v || !isDef v then r else v) r = d := by
    intro l
    induction l with
    | nil => intro r; exact .inl ⟨fun _ h => absurd h List.not_mem_nil, rfl⟩
    | cons v l ih =>
      intro r
      rw [List.foldl_cons]
      cases hv : isNull v || !isDef v with
      | true =>
        simp only [if_true]
        rcases ih r with ⟨h1, h2⟩ | ⟨a, d, b, h1, h2⟩
        · left
          refine ⟨?_, h2⟩
          intro w hw
          rcases List.mem_cons.1 hw with rfl | hw
          · exact (passed_iff _).1 hv
          · exact h1 w hw
        · exact .inr ⟨v :: a, d, b, by rw [h1]; rfl, h2⟩
      | false =>
        simp only [Bool.false_eq_true, if_false]
        have hn : ¬ (v = .null ∨ v = .undef) := by rw [← passed_iff, hv]; decide
        rcases ih v with ⟨h1, h2⟩ | ⟨a, d, b, h1, h2⟩
        · exact .inr ⟨[], v, l, rfl, fun h => hn (.inl h), fun h => hn (.inr h), h1, h2⟩
        · exact .inr ⟨v :: a, d, b, by rw [h1]; rfl, h2⟩
  exact key l .undef

theorem fail_says (fp : Conv.FP) (x : Fail) (hc : IsInt32 (failCode x)) (b : Bool) :
    ∃ data, FailData x data ∧ failObj defaultFmt x = build [(ascii "code", .num (.int (failCode x))), (ascii "message", .str (failMsg x)), (ascii "data", data)] ∧
      Says fp (failCode x) (failMsg x) data ⟨failObj defaultFmt x, b⟩ := by
  have key : ∀ data, failObj defaultFmt x = defaultFmt (failCode x) (failMsg x) data → FailData x data →
      ∃ data, FailData x data ∧ failObj defaultFmt x = build [(ascii "code", .num (.int (failCode x))), (ascii "message", .str (failMsg x)), (ascii "data", data)] ∧
      Says fp (failCode x) (failMsg x) data ⟨failObj defaultFmt x, b⟩ := by
    intro data e hd
    refine ⟨data, hd, ?_, ?_⟩
    · rw [e, defaultFmt_build]
    · rw [e]; exact (C145_object fp _ hc _ data b).1
  cases x with
  | error c m d => exact key d rfl rfl
  | arg d => exact key d rfl rfl
  | argChecked l => exact key _ rfl (rejections_spec l)
  | internal w =>
    cases w with
    | none => exact key _ rfl rfl
    | some w => exact key _ rfl rfl

/-- **C145, the call.** A pending call of a method that reports an error is completed with an error of that code, message and data. -/
theorem C145_call (fp : Conv.FP) (v2 : Bool) (cops : List COp) (hs : ∀ o ∈ cops, sends o = true) (c : Client)
    (hcl : crun { ver := some v2 } cops = .ok c) (id t : Nat) (ht : (id, t) ∈ c.pend)
    (s : Server) (fl : Flags) (what : JV) (fuel : Nat) (ops : List RegOp) (hr : s.reg = regRun [] ops) (n : Bytes)
    (f : Parsed → Fail) (hn : registered ops n = some (failing defaultFmt f)) (args args' ctx : JV)
    (hargs : ArgsOf fl.named args args') (hctx : ctx = .undef ∨ ∃ cx, ctx = .obj cx) (x : Fail)
    (hx : f ⟨.str n, args', .num (.uint id), ctx, if v2 then .str (ascii "2.0") else .undef⟩ = x) (hc : IsInt32 (failCode x)) :
    ∃ r m o res data, serve s fl what takes (fuel + 2) (callMsg v2 id n args ctx) = some r ∧ r.out = [m] ∧ respObj m = some o ∧
      receive c o = .ok { c with
        pend := c.pend.filter (fun e => e.1 != id)
        done := c.done ++ [(t, .answered id res)] } ∧
      res.error = true ∧ FailData x data ∧ Says fp (failCode x) (failMsg x) data res := by
  obtain ⟨data, h1, h2, h3⟩ := fail_says fp x hc true
  obtain ⟨r, m, o, e1, e2, e3, e4⟩ := C119_call_partial v2 cops hs c hcl id t ht s fl what fuel ops hr n (fun p => .inr (failObj defaultFmt (f p))) hn
    args args' ctx hargs hctx (by rw [hx, h2]; exact ⟨rfl, rfl⟩)
  rw [hx] at e4
  exact ⟨r, m, o, ⟨failObj defaultFmt x, true⟩, data, e1, e2, e3, e4, rfl, h1, h3⟩

/-- What the accessors must give at the other end of a text stream. -/
theorem says_arrives (fp : Conv.FP) {cfg : Cfg} (hp : cfg.precise = false) {code : Int} (hc : IsInt32 code) {msg : Bytes} {data w : JV} {b : Bool}
    (h : Reads cfg (build [(ascii "code", .num (.int code)), (ascii "message", .str msg), (ascii "data", data)]) w) :
    ∃ data', Arrives cfg data data' ∧ Says fp code msg data' ⟨w, b⟩ := by
  obtain ⟨g, e, hg⟩ := reads_build h
  have e1 : g (ascii "message") = .str msg := arrives_str (hg (ascii "message") _ rfl)
  have e2 : Conv.getInt fp (g (ascii "code")) = .ok code := by
    have : Reads cfg (.num (.int code)) (g (ascii "code")) := hg (ascii "code") _ rfl
    generalize g (ascii "code") = z at this
    unfold IsInt32 at hc
    cases this with
    | nat _ => exact getInt_uint fp (by omega)
    | neg _ _ => rfl
    | natP h' => rw [hp] at h'; cases h'
    | negP h' => rw [hp] at h'; cases h'
  refine ⟨g (ascii "data"), hg _ _ rfl, ?_⟩
  rw [e]
  simp only [List.map_cons, List.map_nil, e1]
  have hd : ∀ v : JV, ((some v).filter defd).getD .undef = v := getD_filter
  refine ⟨?_, ?_, ?_⟩
  · unfold errorCode
    rw [member_build, show lastVal [(ascii "code", g (ascii "code")), (ascii "message", .str msg), (ascii "data", g (ascii "data"))] (ascii "code") = some (g (ascii "code")) from rfl,
      hd, e2]
    dsimp only
    rw [wrap32_id hc]
  · unfold errorMessage
    rw [member_build, show lastVal [(ascii "code", g (ascii "code")), (ascii "message", .str msg), (ascii "data", g (ascii "data"))] (ascii "message") = some (.str msg) from rfl, hd]
  · unfold errorData
    rw [member_build, show lastVal [(ascii "code", g (ascii "code")), (ascii "message", .str msg), (ascii "data", g (ascii "data"))] (ascii "data") = some (g (ascii "data")) from rfl, hd]

/-- **C145 over text** (partial: messages and data without doubles and the strings "∞", see C01). The response is written to a stream and
read by the client: it still completes the call with an error of the same code and message and the data as they arrive. Missing: those values. -/
theorem C145_text_partial (fp : Conv.FP) (fd : Decimal → Bytes) (cfg : Cfg) (htl : ∀ n < 2 ^ 64, cfg.tooLong n = false) (hp : cfg.precise = false)
    (v2 : Bool) (cops : List COp) (hs : ∀ o ∈ cops, sends o = true) (c : Client)
    (hcl : crun { ver := some v2 } cops = .ok c) (id t : Nat) (hid : id < 2 ^ 64) (ht : (id, t) ∈ c.pend)
    (s : Server) (fl : Flags) (what : JV) (fuel : Nat) (ops : List RegOp) (hr : s.reg = regRun [] ops) (n : Bytes)
    (f : Parsed → Fail) (hn : registered ops n = some (failing defaultFmt f)) (args args' ctx : JV)
    (hargs : ArgsOf fl.named args args') (hctx : ctx = .undef ∨ ∃ cx, ctx = .obj cx) (x : Fail)
    (hx : f ⟨.str n, args', .num (.uint id), ctx, if v2 then .str (ascii "2.0") else .undef⟩ = x) (hc : IsInt32 (failCode x))
    (hmsg : Carried fd cfg (.str (failMsg x))) (hdata : ∀ d, FailData x d → CarriedOpt fd cfg d) (rest : Bytes) (h1 : StopNum rest) :
    ∃ r m o o' res data data', serve s fl what takes (fuel + 2) (callMsg v2 id n args ctx) = some r ∧ r.out = [m] ∧ respObj m = some o ∧
      transfer fd cfg rest o = .ok (o', rest) ∧
      receive c o' = .ok { c with
        pend := c.pend.filter (fun e => e.1 != id)
        done := c.done ++ [(t, .answered id res)] } ∧
      res.error = true ∧ FailData x data ∧ Arrives cfg data data' ∧ Says fp (failCode x) (failMsg x) data' res := by
  obtain ⟨data, g1, g2, g3⟩ := fail_says fp x hc true
  obtain ⟨r, e4, ho⟩ := serve_computes s fl what fuel ops hr n (fun p => .inr (failObj defaultFmt (f p))) hn v2 id args args' ctx hargs hctx
  rw [hx] at ho
  dsimp only at ho
  have hk : ∀ s ∈ ["code", "message", "data"], StrOk true (ascii s) := by
    intro s hs
    apply strOk_ascii
    revert s
    decide
  have hcar : Carried fd cfg (failObj defaultFmt x) := by
    rw [g2]
    apply carried_build
    intro m hm
    simp only [List.mem_cons, List.not_mem_nil, or_false] at hm
    rcases hm with e | e | e <;> subst e
    · refine ⟨hk _ (by decide), fun _ => ⟨?_, ?_⟩⟩
      · simp only [Printable]
      · simp only [Tripable]
        unfold IsInt32 at hc
        omega
    · exact ⟨hk _ (by decide), fun _ => hmsg⟩
    · exact ⟨hk _ (by decide), hdata _ g1⟩
  obtain ⟨v', e5, e6⟩ := transfer_error (f := fd) htl hp v2 hid (fun _ => hcar) h1
  have e6 : Reads cfg (failObj defaultFmt x) v' := by
    unfold Arrives at e6
    rw [show defd (failObj defaultFmt x) = true by rw [g2]; rfl] at e6
    exact e6
  have hnull : isNull v' = false := by rw [reads_isNull e6, g2]; rfl
  have hcls := (C86_understood_partial v2 (.num (.uint id)) rfl v' .undef (reads_defd e6)).2 hnull
  rw [g2] at e6
  obtain ⟨data', k1, k2⟩ := says_arrives fp hp hc (b := true) e6
  exact ⟨r, _, _, _, ⟨v', true⟩, data, data', e4, ho, rfl, e5, by rw [receive_of hcls]; exact (C60_response v2 cops hs c hcl id _).1 t ht,
    rfl, g1, k1, k2⟩

/-- The hypotheses can be met: a method rejecting its arguments. -/
example (fd : Decimal → Bytes) : registered [.add (ascii "m") (failing defaultFmt fun p => .arg p.params)] (ascii "m") =
      some (failing defaultFmt fun p => .arg p.params) ∧
    IsInt32 (failCode (.arg (.arr [.null]))) ∧ FailData (.argChecked [.bool true, .arr [.null], .null]) (.arr [.null]) ∧
    Carried fd {} (.str (failMsg (.arg (.arr [.null])))) ∧ ∀ d, FailData (.arg (.arr [.null])) d → CarriedOpt fd {} d := by
  refine ⟨rfl, by show IsInt32 (-32602); unfold IsInt32; omega, .inr ⟨[.bool true], .arr [.null], [.null], rfl, by decide, by decide, by decide, rfl⟩, ?_, ?_⟩
  · exact ⟨by rw [Printable]; exact strOk_ascii _ (by decide), by rw [Tripable]; decide⟩
  · intro d hd _
    cases hd
    constructor
    · simp [Printable, PrintableL]
    · simp [Tripable, TripableL]

/-- **C145.** `checkArgs` of a request executed by a server answers whether the arguments were accepted and remembers what was rejected. -/
theorem C145_checked (returned rej : JV) :
    (returned = .null ∨ returned = .undef → checkOn true returned rej = .ok (true, rej)) ∧
    (returned ≠ .null → returned ≠ .undef → checkOn true returned rej = .ok (false, returned)) := by
  constructor
  · intro h
    unfold checkOn
    rw [(passed_iff returned).2 h]
    rfl
  · intro h1 h2
    unfold checkOn
    have : (isNull returned || !isDef returned) = false := by
      rw [Bool.eq_false_iff, Ne, passed_iff]
      rintro (h | h)
      · exact h1 h
      · exact h2 h
    rw [this]
    rfl

example : checkOn true (.arr [.null]) .undef = .ok (false, .arr [.null]) ∧ checkOn true .null (.bool true) = .ok (true, .bool true) ∧
    (JV.arr [.null]) ≠ .null ∧ (JV.arr [.null]) ≠ .undef := by decide +kernel

/-- The checks of one request, one after another, leave the rejections used above. -/
theorem C145_checks (l : List JV) :
    l.foldl (fun r v => r.bind fun rej => (checkOn true v rej).bind fun x => .ok x.2) (.ok .undef) = Res.ok (rejectionsAfter l) := by
  unfold rejectionsAfter
  generalize JV.undef = r
  induction l generalizing r with
  | nil => rfl
  | cons v l ih =>
    rw [List.foldl_cons, List.foldl_cons]
    have : ((Res.ok r).bind fun rej => (checkOn true v rej).bind fun x => .ok x.2) = Res.ok (if isNull v || !isDef v then r else v) := by
      unfold checkOn
      cases isNull v || !isDef v <;> rfl
    rw [this]
    exact ih _

/-- **C145, violation.** On a request not yet given to a server, where `setError` works, `checkArgs` calls a function of a null pointer, whatever the arguments. -/
theorem C145_violation_no_server (returned rej : JV) : checkOn false returned rej = .ub := rfl

/-- **C145, violation.** A code of another implementation that does not fit `int` is changed by `getErrorCode`: 4294967301 is given as 5. -/
theorem C145_violation_wide (fp : Conv.FP) :
    errorCode fp ⟨.obj [(ascii "code", .num (.uint 4294967301))], true⟩ = .ok 5 := by
  unfold errorCode
  rw [show memberOf (Result.mk (.obj [(ascii "code", .num (.uint 4294967301))]) true).value (ascii "code") = .num (.uint 4294967301) by decide +kernel,
    getInt_uint fp (by omega)]
  decide +kernel

end Imt.Props
