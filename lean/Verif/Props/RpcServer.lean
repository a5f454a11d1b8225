import Mathlib.Data.List.Induction
import Verif.Model.RpcServer
import Verif.Props.Rpc
import Verif.Props.RpcClient
import Verif.Props.ValidList
/-!
# Properties of the RPC server: dispatch, whole calls, checking of arguments (C118, C119, C120)
-/
namespace Imt.Props
open Imt Imt.Obj Imt.ObjB Imt.Rpc Imt.Spec
open Imt.Eq (EV)
open Imt.Valid (Ev St undefV items at' evalRule)

/-! ## C118: the directory of methods -/

/-- The operation removes the name. -/
def RemovesName (n : Bytes) : RegOp → Bool
  | .add _ _ => false
  | .remove k => k == n
  | .removeAll => true

/-- The function the operation offers for the name. -/
def offers (n : Bytes) : RegOp → Option Method
  | .add k m => if k = n then some m else none
  | _ => none

/-- The first function offered for the name since the name was removed for the last time. -/
def registered (ops : List RegOp) (n : Bytes) : Option Method :=
  (ops.reverse.takeWhile fun o => !RemovesName n o).reverse.findSome? (offers n)

theorem registered_snoc (ops : List RegOp) (o : RegOp) (n : Bytes) :
    registered (ops ++ [o]) n = if RemovesName n o then none else (registered ops n).or (offers n o) := by
  unfold registered
  rw [List.reverse_append]
  simp only [List.reverse_cons, List.reverse_nil, List.nil_append, List.cons_append, List.takeWhile_cons]
  cases h : RemovesName n o with
  | true => simp
  | false => simp [List.findSome?_append]

theorem findM_cons (k : Bytes) (m : Method) (reg : List (Bytes × Method)) (n : Bytes) :
    findM ((k, m) :: reg) n = if k = n then some m else findM reg n := by
  unfold findM
  rw [List.find?_cons]
  by_cases h : k = n
  · simp [h]
  · have hb : (k == n) = false := beq_eq_false_iff_ne.2 h
    simp [h, hb]

theorem findM_filter (k : Bytes) (reg : List (Bytes × Method)) (n : Bytes) :
    findM (reg.filter fun e => e.1 != k) n = if k = n then none else findM reg n := by
  induction reg with
  | nil => simp [findM]
  | cons e reg ih =>
    obtain ⟨k', m⟩ := e
    rw [List.filter_cons]
    by_cases h : k' = k
    · subst h
      simp only [bne_self_eq_false, Bool.false_eq_true, if_false]
      rw [ih, findM_cons]
      split <;> simp [*]
    · rw [if_pos (by simpa using h), findM_cons, findM_cons, ih]
      by_cases h1 : k' = n
      · subst h1; simp [Ne.symm h]
      · simp [h1]

/-- **C118, directory**: a name stands for the first function added since it was removed for the last time. -/
theorem C118_registry (ops : List RegOp) (n : Bytes) : findM (regRun [] ops) n = registered ops n := by
  induction ops using List.reverseRecOn with
  | nil => rfl
  | append_singleton ops o ih =>
    rw [registered_snoc, ← ih]
    unfold regRun
    rw [List.foldl_append, List.foldl_cons, List.foldl_nil]
    generalize List.foldl regStep [] ops = reg
    cases o with
    | add k m =>
      simp only [regStep, RemovesName, offers, Bool.false_eq_true, if_false]
      by_cases h : (findM reg k).isSome
      · rw [if_pos h]
        by_cases hk : k = n
        · subst hk
          obtain ⟨f, hf⟩ := Option.isSome_iff_exists.1 h
          rw [hf]; rfl
        · rw [if_neg hk]; simp
      · rw [if_neg h, findM_cons]
        by_cases hk : k = n
        · subst hk
          rw [Option.not_isSome_iff_eq_none.1 h]; simp
        · simp [hk]
    | remove k =>
      simp only [regStep, RemovesName, offers]
      rw [findM_filter]
      by_cases hk : k = n <;> simp [hk]
    | removeAll => rfl

/-- **C118, directory**: the list of methods has every registered name once and no other. -/
theorem C118_names (ops : List RegOp) :
    ((regRun [] ops).map (·.1)).Nodup ∧ ∀ n, n ∈ (regRun [] ops).map (·.1) ↔ (registered ops n).isSome := by
  refine ⟨?_, fun n => ?_⟩
  · induction ops using List.reverseRecOn with
    | nil => exact List.nodup_nil
    | append_singleton ops o ih =>
      unfold regRun at ih ⊢
      rw [List.foldl_append, List.foldl_cons, List.foldl_nil]
      revert ih
      generalize List.foldl regStep [] ops = reg
      intro ih
      cases o with
      | add k m =>
        simp only [regStep]
        split
        · exact ih
        · next h =>
          rw [List.map_cons, List.nodup_cons]
          refine ⟨fun hm => h ?_, ih⟩
          obtain ⟨e, he, hk⟩ := List.mem_map.1 hm
          unfold findM
          rw [Option.isSome_map, List.find?_isSome]
          exact ⟨e, he, by simpa using hk⟩
      | remove k => exact (List.Sublist.map _ List.filter_sublist).nodup ih
      | removeAll => exact List.nodup_nil
  · rw [← C118_registry]
    unfold findM
    rw [Option.isSome_map, List.find?_isSome, List.mem_map]
    constructor
    · rintro ⟨e, he, hk⟩; exact ⟨e, he, by simpa using hk⟩
    · rintro ⟨e, he, hk⟩; exact ⟨e, he, by simpa using hk⟩

/-- Adding a name twice: the first function stays until the name is removed. -/
example (a b c : Method) : registered [.add [1] a, .add [1] b] [1] = some a ∧
    registered [.add [1] a, .add [2] b, .remove [1], .add [1] c] [1] = some c := ⟨rfl, rfl⟩

/-! ## C118: dispatch -/

/-- Arguments a method is given for the parameters of a message. -/
inductive ArgsOf (named : Bool) : JV → JV → Prop where
  | array (l : List JV) : ArgsOf named (.arr l) (.arr l)
  | missing : ArgsOf named .undef (.arr [])
  | named (l : List (Bytes × JV)) (h : named = true) : ArgsOf named (.obj l) (.obj l)
  | object (l : List (Bytes × JV)) (h : named = false) : ArgsOf named (.obj l) (.arr [.obj l])
  | null : ArgsOf named .null (.arr [.null])
  | bool (b : Bool) : ArgsOf named (.bool b) (.arr [.bool b])
  | num (n : JNum) : ArgsOf named (.num n) (.arr [.num n])
  | str (s : Bytes) : ArgsOf named (.str s) (.arr [.str s])

theorem argsOf_norm (named : Bool) (p : JV) : ArgsOf named p (normParams named p) := by
  cases p with
  | undef => exact .missing
  | null => exact .null
  | bool b => exact .bool b
  | num n => exact .num n
  | str s => exact .str s
  | arr l => exact .array l
  | obj l =>
    cases named with
    | true => exact .named l rfl
    | false => exact .object l rfl

theorem argsOf_unique {named : Bool} {p a : JV} (h : ArgsOf named p a) : a = normParams named p := by
  cases h <;> first | rfl | (next h => subst h; rfl)

/-- A member of the message; undefined if it is missing. -/
def field (l : Members JV) (name : String) : JV := (lookup l (ascii name)).getD .undef

theorem memberOf_field {l : Members JV} (h : StrictSorted l) (name : String) : Rpc.memberOf (.obj l) (ascii name) = field l name := by
  unfold Rpc.memberOf field
  dsimp only
  rw [Obj.member_eq_lookup h]

/-- A request the server accepts: the method is a string, the context is missing or an object. -/
def Acceptable (l : Members JV) : Prop :=
  (∃ n, field l "method" = .str n) ∧ (field l "context" = .undef ∨ ∃ c, field l "context" = .obj c)

theorem validReq_iff {l : Members JV} (hs : StrictSorted l) (fl : Flags) :
    validReq (create fl (parseReq (.obj l))).1 = true ↔ Acceptable l := by
  have hp : ∀ p, argsOk (normParams fl.named p) = true := by
    intro p
    have := argsOf_norm fl.named p
    generalize normParams fl.named p = a at this
    cases this <;> rfl
  unfold validReq create parseReq Acceptable
  dsimp only
  rw [hp, Bool.and_true, memberOf_field hs, memberOf_field hs]
  cases field l "method" <;> cases field l "context" <;> simp [nameOk, ctxOk]

/-- A callback which takes every message and does nothing. -/
def takes : List Msg → Act := fun _ => ⟨[], some true⟩

theorem perform_error (r : Req) (hc : r.cbs = false) (hs : r.sent = false) (fuel : Nat) (e : JV) :
    ∃ r', perform takes (fuel + 2) r [.setError e] = some (r', false) ∧
      r'.out = r.out ++ (if answerable r.id then [.error (errorMsg r.v2 r.id e)] else []) := by
  simp only [perform, prep, hc, hs, Bool.false_eq_true, if_false, Bool.not_false, Bool.and_true]
  by_cases ha : answerable r.id
  · simp [ha, takes, perform]
    unfold postSend
    rfl
  · simp [ha]

theorem perform_result (r : Req) (hc : r.cbs = false) (hs : r.sent = false) (fuel : Nat) (v ctx : JV) :
    ∃ r', perform takes (fuel + 2) r [.setResult v ctx] = some (r', false) ∧
      r'.out = r.out ++ (if answerable r.id then [.result (resultMsg r.v2 r.id v (ctxch ctx))] else []) := by
  simp only [perform, prep, hc, hs, Bool.false_eq_true, if_false, Bool.not_false, Bool.and_true]
  by_cases ha : answerable r.id
  · simp [ha, takes, perform]
    unfold postSend
    rfl
  · simp [ha]

/-- **C118, refused requests**: a message whose method is not a string or whose context is neither missing nor an object is answered
with the error -32600 (not answered without an identifier); no method and no proxy is called. -/
theorem C118_invalid (s : Server) (fl : Flags) (what : JV) (fuel : Nat) (l : Members JV) (hs : StrictSorted l) (h : ¬ Acceptable l) :
    ∃ r, serve s fl what takes (fuel + 2) (.obj l) = some r ∧
      r.out = if answerable (field l "id") then
        [.error (errorMsg (isDef (field l "jsonrpc")) (field l "id") (s.fmt (-32600) (ascii "Invalid request") .undef))] else [] := by
  have hv : validReq (create fl (parseReq (.obj l))).1 = false := by
    rw [Bool.eq_false_iff]
    exact fun hh => h ((validReq_iff hs fl).1 hh)
  unfold serve exec execTry
  dsimp only
  simp only [hv, Bool.false_eq_true, if_false]
  obtain ⟨r', e, ho⟩ := perform_error { (create fl (parseReq (.obj l))).2 with srv := true } rfl rfl fuel
    (s.fmt (-32600) (ascii "Invalid request") .undef)
  refine ⟨r', ?_, ?_⟩
  · unfold errsOf
    dsimp only at e ⊢
    rw [e]
  · rw [ho]
    simp only [create, parseReq, memberOf_field hs, List.nil_append]

/-- **C118, refused requests**: in a message which is not an object every part is missing; it is refused, and as it has no identifier
nothing is sent. -/
theorem C118_not_object (s : Server) (fl : Flags) (what : JV) (fuel : Nat) (msg : JV) (h : ∀ l, msg ≠ .obj l) :
    parseReq msg = ⟨.undef, .undef, .undef, .undef, .undef⟩ ∧
    ∃ r, serve s fl what takes (fuel + 2) msg = some r ∧ r.out = [] := by
  have hp : parseReq msg = ⟨.undef, .undef, .undef, .undef, .undef⟩ := by
    cases msg with
    | obj l => exact absurd rfl (h l)
    | _ => rfl
  refine ⟨hp, ?_⟩
  have hv : validReq (create fl (parseReq msg)).1 = false := by
    rw [hp]
    simp [create, validReq, nameOk]
  unfold serve exec execTry
  dsimp only
  simp only [hv, Bool.false_eq_true, if_false]
  obtain ⟨r', e, ho⟩ := perform_error { (create fl (parseReq msg)).2 with srv := true } rfl rfl fuel
    (s.fmt (-32600) (ascii "Invalid request") .undef)
  refine ⟨r', ?_, ?_⟩
  · unfold errsOf
    dsimp only at e ⊢
    rw [e]
  · rw [ho, hp]
    rfl

example : ∀ l, JV.arr [.str (ascii "m")] ≠ .obj l := by intro l h; cases h

/-- **C118, unknown methods**: without a proxy a method that is not registered is answered with the error -32601 and its name. -/
theorem C118_unknown (s : Server) (fl : Flags) (what : JV) (fuel : Nat) (l : Members JV) (hs : StrictSorted l) (ops : List RegOp)
    (hr : s.reg = regRun [] ops) (hp : s.proxy = none) (n : Bytes) (hm : field l "method" = .str n) (ha : Acceptable l)
    (hn : registered ops n = none) :
    ∃ r, serve s fl what takes (fuel + 2) (.obj l) = some r ∧
      r.out = if answerable (field l "id") then
        [.error (errorMsg (isDef (field l "jsonrpc")) (field l "id") (s.fmt (-32601) (ascii "Method not found") (.str n)))] else [] := by
  have hv := (validReq_iff hs fl).2 ha
  have hname : (create fl (parseReq (.obj l))).1.method = .str n := by
    simp only [create, parseReq, memberOf_field hs, hm]
  unfold serve exec execTry
  dsimp only
  simp only [hv, if_true, hname, nameOf, hr, C118_registry, hn, hp, Option.map_none]
  obtain ⟨r', e, ho⟩ := perform_error { (create fl (parseReq (.obj l))).2 with srv := true } rfl rfl fuel
    (s.fmt (-32601) (ascii "Method not found") (.str n))
  refine ⟨r', ?_, ?_⟩
  · unfold errsOf
    dsimp only at e ⊢
    rw [hname, e]
  · rw [ho]
    simp only [create, parseReq, memberOf_field hs, List.nil_append]

/-- **C118, known methods**: the function registered under the name runs on the arguments, identifier, context and version of the message, whatever
the function, the handler and the callback do. -/
theorem C118_called (s : Server) (fl : Flags) (what : JV) (cb : List Msg → Act) (fuel : Nat) (l : Members JV) (hs : StrictSorted l)
    (ops : List RegOp) (hr : s.reg = regRun [] ops) (n : Bytes) (hm : field l "method" = .str n) (ha : Acceptable l) (m : Method)
    (hn : registered ops n = some m) (args : JV) (hargs : ArgsOf fl.named (field l "params") args) :
    let p : Parsed := ⟨.str n, args, field l "id", field l "context", field l "jsonrpc"⟩
    let r0 := fresh (field l "id") (isDef (field l "jsonrpc")) fl.post fl.pre true
    serve s fl what cb fuel (.obj l) =
      match perform cb fuel r0 (m p).ops with
      | none => none
      | some (r, threw) =>
        if threw || (m p).ret.isNone then
          execCatch cb fuel (errsOf s p what) (s.handler.map (· p)) r
        else some r := by
  have hv := (validReq_iff hs fl).2 ha
  have hc : create fl (parseReq (.obj l)) = (⟨.str n, args, field l "id", field l "context", field l "jsonrpc"⟩,
      { cbs := false, id := field l "id", v2 := isDef (field l "jsonrpc"), post := fl.post, notif := fl.pre }) := by
    simp only [create, parseReq, memberOf_field hs, hm, argsOf_unique hargs]
  rw [hc] at hv
  dsimp only
  unfold serve exec execTry
  dsimp only
  simp only [hc, hv, if_true, nameOf, hr, C118_registry, hn, Option.map_some, fresh]
  cases perform cb fuel { cbs := false, id := field l "id", v2 := isDef (field l "jsonrpc"), post := fl.post, srv := true, notif := fl.pre }
    (m ⟨.str n, args, field l "id", field l "context", field l "jsonrpc"⟩).ops with
  | none => rfl
  | some x =>
    obtain ⟨r, t⟩ := x
    dsimp only [Option.map_some]
    cases h : (t || (m ⟨.str n, args, field l "id", field l "context", field l "jsonrpc"⟩).ret.isNone) <;> simp

/-- **C118, proxy**: a method that is not registered goes to the proxy with the same request. A proxy that throws is treated like
a method that throws; one that says it did not take the request leaves the error -32601 to the server. -/
theorem C118_proxy (s : Server) (fl : Flags) (what : JV) (cb : List Msg → Act) (fuel : Nat) (l : Members JV) (hs : StrictSorted l)
    (ops : List RegOp) (hr : s.reg = regRun [] ops) (n : Bytes) (hm : field l "method" = .str n) (ha : Acceptable l) (m : Method)
    (hp : s.proxy = some m) (hn : registered ops n = none) (args : JV) (hargs : ArgsOf fl.named (field l "params") args) :
    let p : Parsed := ⟨.str n, args, field l "id", field l "context", field l "jsonrpc"⟩
    let r0 := fresh (field l "id") (isDef (field l "jsonrpc")) fl.post fl.pre true
    let fails := execCatch cb fuel (errsOf s p what) (s.handler.map (· p))
    serve s fl what cb fuel (.obj l) =
      match perform cb fuel r0 (m p).ops with
      | none => none
      | some (r, true) => fails r
      | some (r, false) =>
        match (m p).ret with
        | none => fails r
        | some true => some r
        | some false =>
          match perform cb fuel r [.setError (s.fmt (-32601) (ascii "Method not found") (.str n))] with
          | none => none
          | some (r, false) => some r
          | some (r, true) => fails r := by
  have hv := (validReq_iff hs fl).2 ha
  have hc : create fl (parseReq (.obj l)) = (⟨.str n, args, field l "id", field l "context", field l "jsonrpc"⟩,
      { cbs := false, id := field l "id", v2 := isDef (field l "jsonrpc"), post := fl.post, notif := fl.pre }) := by
    simp only [create, parseReq, memberOf_field hs, hm, argsOf_unique hargs]
  rw [hc] at hv
  dsimp only
  unfold serve exec execTry
  dsimp only
  simp only [hc, hv, if_true, nameOf, hr, C118_registry, hn, hp, Option.map_some, Option.map_none, fresh]
  cases perform cb fuel { cbs := false, id := field l "id", v2 := isDef (field l "jsonrpc"), post := fl.post, srv := true, notif := fl.pre }
    (m ⟨.str n, args, field l "id", field l "context", field l "jsonrpc"⟩).ops with
  | none => rfl
  | some x =>
    obtain ⟨r, t⟩ := x
    dsimp only
    cases (m ⟨.str n, args, field l "id", field l "context", field l "jsonrpc"⟩).ret with
    | none => cases t <;> simp
    | some b =>
      cases t with
      | true => simp
      | false =>
        cases b with
        | true => simp
        | false =>
          simp only [Option.isNone_some, Bool.or_self, Bool.false_eq_true, if_false, errsOf, Option.some.injEq]
          rfl

example : ∃ l : Members JV, StrictSorted l ∧ Acceptable l ∧ field l "method" = .str (ascii "m") ∧
    registered [] (ascii "m") = none ∧ ArgsOf false (field l "params") (.arr []) :=
  ⟨[(ascii "method", .str (ascii "m"))], by decide, ⟨⟨_, rfl⟩, .inl rfl⟩, rfl, rfl, .missing⟩

/-- **C118, answers**: whatever value comes as a message (not only an object) and whatever the methods do with the request, one response is
sent when the message has an identifier other than null, otherwise none. -/
theorem C118_answered_partial (s : Server) (fl : Flags) (what : JV) (cb : List Msg → Act) (hq : QuietOnResult cb) (msg : JV)
    (later : List Op) (f1 f2 f3 : Nat) (err : JV) (r r1 r2 : Req) (t : Bool) (h : serve s fl what cb f1 msg = some r)
    (hl : perform cb f2 r later = some (r1, t)) (hd : destroy cb f3 err r1 = some r2) :
    responses r2.out = if answerable (Rpc.memberOf msg (ascii "id")) then 1 else 0 :=
  C59_answered_partial cb hq _ _ _ _ false _ err _ _ _ _ later f1 f2 f3 r r1 r2 t h hl hd

/-- **C118, refused requests**: parameters changed by `setParams` (rpc.cpp:891-893) to a null, a flag, a number or a string are refused with the error
-32600 as well, whatever method, proxy and handler there are. -/
theorem C118_params (s : Server) (p : Parsed) (what : JV) (m proxy handler : Option Fn) (id : JV) (v2 post notif srv : Bool) (fuel : Nat)
    (h : p.params = .null ∨ (∃ b, p.params = .bool b) ∨ (∃ x, p.params = .num x) ∨ ∃ t, p.params = .str t) :
    ∃ r, exec takes (fuel + 2) (errsOf s p what) (validReq p) m proxy handler (fresh id v2 post notif srv) = some r ∧
      r.out = if answerable id then [.error (errorMsg v2 id (s.fmt (-32600) (ascii "Invalid request") .undef))] else [] := by
  have hv : validReq p = false := by
    unfold validReq
    rcases h with h | ⟨b, h⟩ | ⟨b, h⟩ | ⟨b, h⟩ <;> simp [h, argsOk]
  unfold exec execTry
  simp only [hv, Bool.false_eq_true, if_false]
  obtain ⟨r', e, ho⟩ := perform_error { fresh id v2 post notif srv with srv := true } rfl rfl fuel
    (s.fmt (-32600) (ascii "Invalid request") .undef)
  refine ⟨r', ?_, ?_⟩
  · unfold errsOf
    dsimp only at e ⊢
    rw [e]
  · rw [ho]
    rfl

example : (⟨.str [109], .num (.uint 1), .num (.uint 7), .undef, .undef⟩ : Parsed).params = .num (.uint 1) := rfl

/-- **C118, exception handler**: when the method leaves by an exception and the handler says that it took the request, nothing more is done, for all
callbacks; when it declines and nothing was sent, the error -32603 with the text of the exception is sent. -/
theorem C118_handler (s : Server) (p : Parsed) (what : JV) (f h : Fn) (proxy : Option Fn) (r0 r1 r2 : Req) (t : Bool) (fuel : Nat) (cb : List Msg → Act)
    (hm : perform cb (fuel + 2) { r0 with srv := true } f.ops = some (r1, t)) (ht : t = true ∨ f.ret = none)
    (hh : perform cb (fuel + 2) r1 h.ops = some (r2, false)) :
    (h.ret = some true → exec cb (fuel + 2) (errsOf s p what) true (some f) proxy (some h) r0 = some r2) ∧
      (h.ret = some false → cb = takes → r2.cbs = false → r2.sent = false →
        ∃ r, exec cb (fuel + 2) (errsOf s p what) true (some f) proxy (some h) r0 = some r ∧
          r.out = r2.out ++ if answerable r2.id then [.error (errorMsg r2.v2 r2.id (s.fmt (-32603) (ascii "Internal error") what))] else []) := by
  have ht' : (t || f.ret.isNone) = true := by rcases ht with h | h <;> simp [h]
  constructor
  · intro hr
    unfold exec execTry
    simp only [if_true, hm, Option.map_some, ht', execCatch, hh, hr, Bool.false_or, Option.isNone_some, Bool.false_eq_true, if_false]
  · intro hr hcb hc hs
    subst hcb
    obtain ⟨r', e, ho⟩ := perform_error r2 hc hs fuel (s.fmt (-32603) (ascii "Internal error") what)
    refine ⟨r', ?_, ho⟩
    unfold exec execTry
    simp only [if_true, hm, Option.map_some, ht', execCatch, hh, hr, Bool.false_or, Option.isNone_some, Bool.false_eq_true, if_false,
      Option.some.injEq, errsOf, e]

/-- A method that throws at once and handlers that take and decline. -/
example : (exec takes 9 ⟨.null, .null, .bool true⟩ true (some ⟨[], none⟩) none (some ⟨[], some true⟩) (fresh (.num (.uint 7)) true false false true)).map (·.out) = some [] ∧
    ((exec takes 9 ⟨.null, .null, .bool true⟩ true (some ⟨[], none⟩) none (some ⟨[], some false⟩) (fresh (.num (.uint 7)) true false false true)).map (·.out)).isSome ∧
    perform takes 9 { fresh (.num (.uint 7)) true false false true with srv := true } [] = some (fresh (.num (.uint 7)) true false false true, false) := by
  refine ⟨by decide +kernel, by decide +kernel, rfl⟩

/-- **C118, heart beat**: `hearthbeat` is `noexcept`; a callback which throws while it takes the heart beat ends the program (no result of the model),
while the same callback thrown at by `setResult` only ends the method. -/
theorem C118_beat_terminates (cb : List Msg → Act) (r : Req) (ops : List Op) (fuel : Nat) (hcb : (cb (r.out ++ [.beat])).ret = none) :
    perform cb fuel r (.beat :: ops) = none := by
  cases fuel with
  | zero => rfl
  | succ n =>
    simp only [perform, prep, hcb]
    split
    · rfl
    · simp [nothrow]

example : ((fun _ => ⟨[], none⟩ : List Msg → Act) ((fresh (.num (.uint 7)) true false false true).out ++ [.beat])).ret = none := rfl
/-- The same callback and `setResult`: the exception leaves the method. -/
example : ∃ r, perform (fun _ => ⟨[], none⟩) 9 (fresh (.num (.uint 7)) true false false true) [.setResult .null .undef] = some (r, true) := ⟨_, rfl⟩

/-- A server with two methods and a message for one of them. -/
example :
    let l : Members JV := [(ascii "id", .num (.uint 7)), (ascii "jsonrpc", .str (ascii "2.0")), (ascii "method", .str (ascii "ping")), (ascii "params", .bool true)]
    StrictSorted l ∧ Acceptable l ∧ ArgsOf false (field l "params") (.arr [.bool true]) ∧
      (serve { reg := regRun [] [.add (ascii "ping") ping, .add (ascii "list") (listMethods [])], fmt := defaultFmt } {} .undef takes 9 (.obj l)).map (·.out) =
        some [.result (.obj [(ascii "id", .num (.uint 7)), (ascii "jsonrpc", .str (ascii "2.0")), (ascii "result", .arr [.bool true])])] := by
  intro l
  refine ⟨by decide +kernel, ⟨⟨_, rfl⟩, .inl rfl⟩, .bool true, by decide +kernel⟩

/-- A message without a method, and one with a list as the context. -/
example : ¬ Acceptable [(ascii "id", .null)] ∧ ¬ Acceptable [(ascii "context", .arr []), (ascii "method", .str [65])] := by
  constructor
  · rintro ⟨⟨n, h⟩, _⟩; cases h
  · rintro ⟨_, h | ⟨c, h⟩⟩ <;> cases h

/-! ## C119: a whole call -/

theorem callMsg_fields (v2 : Bool) (id : Nat) (n : Bytes) (args ctx : JV) :
    ∃ l, callMsg v2 id n args ctx = .obj l ∧ StrictSorted l ∧ field l "method" = .str n ∧ field l "params" = args ∧
      field l "id" = .num (.uint id) ∧ field l "context" = ctx ∧ field l "jsonrpc" = if v2 then .str (ascii "2.0") else .undef := by
  have g : ∀ L : Members JV, ∃ l, build L = .obj l ∧ StrictSorted l ∧ ∀ name, field l name = ((lastVal L (ascii name)).filter defd).getD .undef := by
    intro L
    obtain ⟨h1, h2⟩ := build_spec L
    exact ⟨_, rfl, h1, fun name => by unfold field; rw [h2]⟩
  unfold callMsg
  cases v2 with
  | true =>
    obtain ⟨l, e, hs, hf⟩ := g [(ascii "method", .str n), (ascii "params", args), (ascii "id", .num (.uint id)), (ascii "jsonrpc", .str (ascii "2.0")), (ascii "context", ctx)]
    exact ⟨l, e, hs, (hf _).trans (getD_filter _), (hf _).trans (getD_filter _), (hf _).trans (getD_filter _), (hf _).trans (getD_filter _), (hf _).trans (getD_filter _)⟩
  | false =>
    obtain ⟨l, e, hs, hf⟩ := g [(ascii "method", .str n), (ascii "params", args), (ascii "id", .num (.uint id)), (ascii "context", ctx)]
    exact ⟨l, e, hs, (hf _).trans (getD_filter _), (hf _).trans (getD_filter _), (hf _).trans (getD_filter _), (hf _).trans (getD_filter _), (hf _).trans rfl⟩

/-- A method that computes a result (with a change of the context) or an error. -/
def computes (f : Parsed → (JV × JV) ⊕ JV) : Method := fun p =>
  match f p with
  | .inl x => ⟨[.setResult x.1 x.2], some true⟩
  | .inr e => ⟨[.setError e], some true⟩

/-- What the caller should get. -/
def callResult : (JV × JV) ⊕ JV → Result
  | .inl x => ⟨x.1, false⟩
  | .inr e => ⟨e, true⟩

/-- Defined results, defined errors other than null. -/
def Telling : (JV × JV) ⊕ JV → Prop
  | .inl x => defd x.1 = true
  | .inr e => defd e = true ∧ isNull e = false

theorem ctx_ok {l : Members JV} {n : Bytes} {ctx : JV} (hm : field l "method" = .str n) (hc : field l "context" = ctx)
    (h : ctx = .undef ∨ ∃ c, ctx = .obj c) : Acceptable l := ⟨⟨n, hm⟩, by rw [hc]; exact h⟩

/-- The response to a call of a registered method. -/
theorem serve_computes (s : Server) (fl : Flags) (what : JV) (fuel : Nat) (ops : List RegOp) (hr : s.reg = regRun [] ops) (n : Bytes)
    (f : Parsed → (JV × JV) ⊕ JV) (hn : registered ops n = some (computes f)) (v2 : Bool) (id : Nat) (args args' ctx : JV)
    (hargs : ArgsOf fl.named args args') (hctx : ctx = .undef ∨ ∃ c, ctx = .obj c) :
    ∃ r, serve s fl what takes (fuel + 2) (callMsg v2 id n args ctx) = some r ∧
      r.out = match f ⟨.str n, args', .num (.uint id), ctx, if v2 then .str (ascii "2.0") else .undef⟩ with
        | .inl x => [.result (resultMsg v2 (.num (.uint id)) x.1 (ctxch x.2))]
        | .inr e => [.error (errorMsg v2 (.num (.uint id)) e)] := by
  obtain ⟨l, e, hs, h1, h2, h3, h4, h5⟩ := callMsg_fields v2 id n args ctx
  have hc := C118_called s fl what takes (fuel + 2) l hs ops hr n h1 (ctx_ok h1 h4 hctx) _ hn args' (by rw [h2]; exact hargs)
  dsimp only at hc
  rw [e, hc, h3, h4, h5]
  have hv2 : isDef (if v2 then .str (ascii "2.0") else .undef) = v2 := by cases v2 <;> rfl
  rw [hv2]
  unfold computes
  cases hf : f ⟨.str n, args', .num (.uint id), ctx, if v2 then .str (ascii "2.0") else .undef⟩ with
  | inl x =>
    obtain ⟨r', e1, ho⟩ := perform_result (fresh (.num (.uint id)) v2 fl.post fl.pre true) rfl rfl fuel x.1 x.2
    dsimp only
    rw [e1]
    exact ⟨r', rfl, by rw [ho]; rfl⟩
  | inr y =>
    obtain ⟨r', e1, ho⟩ := perform_error (fresh (.num (.uint id)) v2 fl.post fl.pre true) rfl rfl fuel y
    dsimp only
    rw [e1]
    exact ⟨r', rfl, by rw [ho]; rfl⟩

theorem receive_of {c : Client} {msg : JV} {id : Nat} {r : Result} (h : classify msg = .response (.num (.uint id)) r) :
    receive c msg = cstep c (.response id r) := by
  unfold receive; rw [h]

/-- **C119** (partial: results are defined, errors are defined and not null). In any state of the client reached by any calls, responses
and cancellations, a pending call of a method registered on the server is completed by the response of the server with the result or error
the method computes from the arguments and the context of the call. Every other pending call stays. Missing: undefined
results and null errors, where it fails. -/
theorem C119_call_partial (v2 : Bool) (cops : List COp) (hs : ∀ o ∈ cops, sends o = true) (c : Client)
    (hcl : crun { ver := some v2 } cops = .ok c) (id t : Nat) (ht : (id, t) ∈ c.pend)
    (s : Server) (fl : Flags) (what : JV) (fuel : Nat) (ops : List RegOp) (hr : s.reg = regRun [] ops) (n : Bytes)
    (f : Parsed → (JV × JV) ⊕ JV) (hn : registered ops n = some (computes f)) (args args' ctx : JV)
    (hargs : ArgsOf fl.named args args') (hctx : ctx = .undef ∨ ∃ cx, ctx = .obj cx)
    (hf : Telling (f ⟨.str n, args', .num (.uint id), ctx, if v2 then .str (ascii "2.0") else .undef⟩)) :
    ∃ r m o, serve s fl what takes (fuel + 2) (callMsg v2 id n args ctx) = some r ∧ r.out = [m] ∧ respObj m = some o ∧
      receive c o = .ok { c with
        pend := c.pend.filter (fun e => e.1 != id)
        done := c.done ++ [(t, .answered id (callResult (f ⟨.str n, args', .num (.uint id), ctx, if v2 then .str (ascii "2.0") else .undef⟩)))] } := by
  obtain ⟨r, e, ho⟩ := serve_computes s fl what fuel ops hr n f hn v2 id args args' ctx hargs hctx
  revert ho hf
  cases f ⟨.str n, args', .num (.uint id), ctx, if v2 then .str (ascii "2.0") else .undef⟩ with
  | inl x =>
    intro hf ho
    have hcls := (C86_understood_partial v2 (.num (.uint id)) rfl x.1 (ctxch x.2) hf).1
    exact ⟨r, _, _, e, ho, rfl, by rw [receive_of hcls]; exact (C60_response v2 cops hs c hcl id _).1 t ht⟩
  | inr y =>
    intro hf ho
    have hcls := (C86_understood_partial v2 (.num (.uint id)) rfl y .undef hf.1).2 hf.2
    exact ⟨r, _, _, e, ho, rfl, by rw [receive_of hcls]; exact (C60_response v2 cops hs c hcl id _).1 t ht⟩

/-- A call of a method that is not registered is completed with the error -32601. -/
theorem C119_unknown_method (v2 : Bool) (cops : List COp) (hs : ∀ o ∈ cops, sends o = true) (c : Client)
    (hcl : crun { ver := some v2 } cops = .ok c) (id t : Nat) (ht : (id, t) ∈ c.pend)
    (s : Server) (hfmt : s.fmt = defaultFmt) (fl : Flags) (what : JV) (fuel : Nat) (ops : List RegOp) (hr : s.reg = regRun [] ops)
    (hp : s.proxy = none) (n : Bytes) (hn : registered ops n = none) (args ctx : JV) (hctx : ctx = .undef ∨ ∃ cx, ctx = .obj cx) :
    ∃ r m o, serve s fl what takes (fuel + 2) (callMsg v2 id n args ctx) = some r ∧ r.out = [m] ∧ respObj m = some o ∧
      receive c o = .ok { c with
        pend := c.pend.filter (fun e => e.1 != id)
        done := c.done ++ [(t, .answered id ⟨.obj [(ascii "code", .num (.int (-32601))), (ascii "data", .str n),
          (ascii "message", .str (ascii "Method not found"))], true⟩)] } := by
  obtain ⟨l, e, hss, h1, h2, h3, h4, h5⟩ := callMsg_fields v2 id n args ctx
  obtain ⟨r, e1, ho⟩ := C118_unknown s fl what fuel l hss ops hr hp n h1 (ctx_ok h1 h4 hctx) hn
  have hv2 : isDef (field l "jsonrpc") = v2 := by rw [h5]; cases v2 <;> rfl
  have herr : s.fmt (-32601) (ascii "Method not found") (.str n) = .obj [(ascii "code", .num (.int (-32601))), (ascii "data", .str n),
      (ascii "message", .str (ascii "Method not found"))] := by
    rw [hfmt]
    rfl
  rw [h3, hv2, herr] at ho
  have hcls := (C86_understood_partial v2 (.num (.uint id)) rfl (.obj [(ascii "code", .num (.int (-32601))), (ascii "data", .str n),
      (ascii "message", .str (ascii "Method not found"))]) .undef rfl).2 rfl
  exact ⟨r, _, _, by rw [e]; exact e1, ho, rfl, by rw [receive_of hcls]; exact (C60_response v2 cops hs c hcl id _).1 t ht⟩

/-- **C119, violation.** In version 2 a method with an undefined result answers with a message the client does not take for a response: the call
stays pending. -/
theorem C119_violation_undefined (s : Server) (fl : Flags) (what : JV) (fuel : Nat) (ops : List RegOp) (hr : s.reg = regRun [] ops)
    (n : Bytes) (hn : registered ops n = some (computes fun _ => .inl (.undef, .undef))) (id : Nat) (l : List JV) (c : Client) :
    ∃ r m o, serve s fl what takes (fuel + 2) (callMsg true id n (.arr l) .undef) = some r ∧ r.out = [m] ∧ respObj m = some o ∧
      receive c o = .ok c := by
  obtain ⟨r, e, ho⟩ := serve_computes s fl what fuel ops hr n _ hn true id (.arr l) (.arr l) .undef (.array l) (.inl rfl)
  refine ⟨r, _, _, e, ho, rfl, ?_⟩
  unfold receive
  rw [(C86_violation_undefined (.num (.uint id)) rfl _).1]

/-- The third call of a client while the first one is pending. -/
example : ∃ c, crun { ver := some true } [.call, .call, .response 2 ⟨.null, false⟩, .call] = .ok c ∧ (3, 2) ∈ c.pend ∧ (1, 0) ∈ c.pend := ⟨_, rfl, by decide +kernel⟩
example : Telling (Sum.inl (.bool true, .undef)) ∧ Telling (Sum.inr (.str [65])) := ⟨rfl, rfl, rfl⟩
example (f : Parsed → (JV × JV) ⊕ JV) (g : Method) : registered [.add [65] (computes f), .add [65] g] [65] = some (computes f) := rfl

/-! ## C120: checking of arguments -/

/-- The rules of a definition: its items, or the definition alone. -/
def argRules (d : EV) : List EV := if d.sh = .arr then d.kids else if d.sh = .undef then [] else [d]

/-- **C120**: arguments are accepted iff they are an array not longer than the list of rules and every rule accepts the argument at
its place (undefined, if there is none). -/
theorem C120_args (env : Valid.Env) (df : EV) (n : Nat) (acc : EV → EV → Bool) (args d : EV) (hlen : (argRules d).length < 2 ^ 32)
    (h : ∀ (j : Nat) (r : EV), (argRules d)[j]? = some r → EvIs (evalRule env df n) acc [] [((items args)[j]?).getD undefV] [r]) :
    ∃ b st, checkArgs env df n args d = (.ok b, st) ∧
      (b = true ↔ args.sh = .arr ∧ args.kids.length ≤ (argRules d).length ∧
        ∀ (j : Nat) (r : EV), (argRules d)[j]? = some r → acc ((args.kids[j]?).getD undefV) r = true) := by
  have key : ∀ pat : EV, Valid.isArr pat = true → items pat = argRules d →
      ∃ b st, Valid.evalRuleArray env (evalRule env df n) args pat (items pat).length 0 [] {} = (.ok b, st) ∧
        (b = true ↔ args.sh = .arr ∧ args.kids.length ≤ (argRules d).length ∧
          ∀ (j : Nat) (r : EV), (argRules d)[j]? = some r → acc ((args.kids[j]?).getD undefV) r = true) := by
    intro pat _ hi
    have hat : ∀ j, at' pat (j + 0) = ((argRules d)[j]?).getD undefV := by
      intro j; unfold at'; rw [hi]; rfl
    by_cases ha : args.sh = .arr
    · have hia : Valid.isArr args = true := by unfold Valid.isArr; rw [ha]
      have his : items args = args.kids := by unfold items; rw [ha]
      rw [his] at h
      obtain ⟨b, st1, e1, v1, hb⟩ := tupleLoop_is (V := []) (p := []) (off := 0) (s := args) (rule := pat) (acc := acc)
        (ev := evalRule env df n) (argRules d).length 0 (fun j _ hj => by
          have hj' : (argRules d)[j]? = some (((argRules d)[j]?).getD undefV) := by
            rw [List.getElem?_eq_getElem (by omega)]; rfl
          have := h j _ hj'
          have hs : at' args j = (args.kids[j]?).getD undefV := by unfold at'; rw [his]
          rw [hat, hs]
          exact this _ (by simp) _ (by simp)) ({} : St) rfl
      have hdrop : (items pat).drop (items pat).length = [] := List.drop_length
      unfold Valid.evalRuleArray
      rw [hia, his]
      simp only [Bool.not_true, Bool.false_eq_true, if_false]
      rw [hi, Valid.bind_def, e1]
      cases b with
      | false =>
        refine ⟨false, st1, rfl, ?_⟩
        simp only [Bool.false_eq_true, false_iff] at hb ⊢
        rintro ⟨_, _, hh⟩
        refine hb fun j _ hj => ?_
        have hs : at' args j = (args.kids[j]?).getD undefV := by unfold at'; rw [his]
        rw [hs, hat]
        exact hh j _ (by rw [List.getElem?_eq_getElem (by omega)]; rfl)
      | true =>
        simp only [true_iff] at hb
        have hmod : ((argRules d).length + 0) % 4294967296 = (argRules d).length := Nat.mod_eq_of_lt (by omega)
        obtain ⟨b2, st2, e2, v2, hb2⟩ := restLoop_is (env := env) (ev := evalRule env df n) (acc := acc) (V := []) (rule := pat)
          (off := (argRules d).length) (p := []) (args.kids.drop (argRules d).length) (argRules d).length (by
            intro a _ y hy; rw [hi, List.drop_length] at hy; cases hy) st1 v1
        refine ⟨b2, st2, ?_, ?_⟩
        · simp only [Bool.not_true, Bool.false_eq_true, if_false, hmod]
          exact e2
        · rw [hb2]
          constructor
          · intro hh
            refine ⟨ha, ?_, ?_⟩
            · by_contra hlt
              have hx : args.kids.drop (argRules d).length ≠ [] := by
                rw [ne_eq, List.drop_eq_nil_iff]; omega
              obtain ⟨x, hx⟩ := List.exists_mem_of_ne_nil _ hx
              obtain ⟨j, r, hj, hr, _⟩ := hh x hx
              rw [hi, List.getElem?_eq_none hj] at hr
              cases hr
            · intro j r hj
              obtain ⟨hlt, hr⟩ := List.getElem?_eq_some_iff.1 hj
              have := hb j (by omega) (by omega)
              have hs : at' args j = (args.kids[j]?).getD undefV := by unfold at'; rw [his]
              rw [hs, hat, hj] at this
              exact this
          · rintro ⟨_, hle, _⟩ x hx
            rw [List.drop_eq_nil_of_le hle] at hx
            cases hx
    · have hia : Valid.isArr args = false := by
        unfold Valid.isArr
        cases hsh : args.sh <;> first | rfl | exact absurd hsh ha
      refine ⟨false, {}, by unfold Valid.evalRuleArray; rw [hia]; rfl, ?_⟩
      simp only [Bool.false_eq_true, false_iff]
      exact fun hh => ha hh.1
  unfold checkArgs
  dsimp only
  cases hd : Valid.isArr d with
  | true =>
    rw [if_pos rfl]
    refine key d hd ?_
    unfold Valid.isArr at hd
    unfold items argRules
    cases hsh : d.sh <;> rw [hsh] at hd <;> first | rfl | cases hd
  | false =>
    rw [if_neg (by decide)]
    refine key _ rfl ?_
    have : d.sh ≠ .arr := by
      intro hc; unfold Valid.isArr at hd; rw [hc] at hd; cases hd
    unfold items argRules Valid.defd
    rw [if_neg this]
    by_cases hu : d.sh = .undef
    · rw [hu]; rfl
    · rw [if_neg hu]
      have : (d.sh != .undef) = true := by simpa using hu
      simp only [this, if_true]
      rfl

/-- Two rules: the missing second argument is tested as undefined, a third one is refused; named arguments are refused. -/
example : let d := va 1 [vs 2 "string", va 3 [vs 4 "number", vs 5 "undefined"]]
    (checkArgs venv undefV 9 (va 20 [vs 21 "x"]) d).1 = .ok true ∧
    (checkArgs venv undefV 9 (va 20 [vs 21 "x", vn 22 1]) d).1 = .ok true ∧
    (checkArgs venv undefV 9 (va 20 [vs 21 "x", vn 22 1, vn 23 1]) d).1 = .ok false ∧
    (checkArgs venv undefV 9 (vo 20 []) d).1 = .ok false ∧
    (checkArgs venv undefV 9 (va 20 [vs 21 "x"]) (vs 2 "string")).1 = .ok true := by decide +kernel
/-- The hypothesis holds for literal rules. -/
example (df : EV) (n : Nat) (args : EV) : ∀ (j : Nat) (r : EV), (argRules (va 1 [vn 2 5, vn 3 6]))[j]? = some r →
    EvIs (evalRule venv df (n + 1)) (fun s t => Eq.opEq s t) [] [((items args)[j]?).getD undefV] [r] := by
  intro j r hj s _ t ht p st hst
  rw [List.mem_singleton] at ht
  subst ht
  have hl : Valid.isLit t = true := by
    match j, hj with
    | 0, hj => cases hj; rfl
    | 1, hj => cases hj; rfl
    | j + 2, hj => cases hj
  exact ⟨st, by simp [evalRule, Valid.step, hl], hst⟩

end Imt.Props
