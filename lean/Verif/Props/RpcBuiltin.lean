import Verif.Model.RpcBuiltin
import Verif.Props.RpcServer
/-!
# Properties of the built-in methods of the RPC server and of the selection of pending calls (C148, C149)
-/
namespace Imt.Props
open Imt Imt.Spec Imt.Obj Imt.ObjB Imt.Rpc

/-! ## C148: built-in methods -/

/-- The call `id` of the client, made with these arguments, is completed with the result by the answer of the server; other pending calls stay. -/
def Completes (s : Server) (fl : Flags) (what : JV) (fuel : Nat) (c : Client) (v2 : Bool) (id t : Nat) (n : Bytes) (args ctx : JV) (res : Result) : Prop :=
  ∃ r m o, serve s fl what takes fuel (callMsg v2 id n args ctx) = some r ∧ r.out = [m] ∧ respObj m = some o ∧
    receive c o = .ok { c with
      pend := c.pend.filter (fun e => e.1 != id)
      done := c.done ++ [(t, .answered id res)] }

/-- **C148, ping**: the caller gets its arguments back, as the list of arguments the method sees. -/
theorem C148_ping (v2 : Bool) (cops : List COp) (hs : ∀ o ∈ cops, sends o = true) (c : Client)
    (hcl : crun { ver := some v2 } cops = .ok c) (id t : Nat) (ht : (id, t) ∈ c.pend)
    (s : Server) (fl : Flags) (what : JV) (fuel : Nat) (ops : List RegOp) (hr : s.reg = regRun [] ops) (n : Bytes)
    (hn : registered ops n = some ping) (args args' ctx : JV)
    (hargs : ArgsOf fl.named args args') (hctx : ctx = .undef ∨ ∃ cx, ctx = .obj cx) :
    Completes s fl what (fuel + 2) c v2 id t n args ctx ⟨args', false⟩ := by
  have hp : ping = computes fun p => .inl (p.params, .undef) := rfl
  exact C119_call_partial v2 cops hs c hcl id t ht s fl what fuel ops hr n _ (hp ▸ hn) args args' ctx hargs hctx
    (by cases hargs <;> rfl)

theorem help_computes (content : JV) :
    help content = computes fun p => .inl (Rpc.memberOf content (textOf (firstOf p.params)), .undef) := rfl

/-- **C148, help** (partial: the topic is a member of the content). The caller gets the entry of the topic. Missing: topics without an entry, where it fails. -/
theorem C148_help_partial (v2 : Bool) (cops : List COp) (hs : ∀ o ∈ cops, sends o = true) (c : Client)
    (hcl : crun { ver := some v2 } cops = .ok c) (id t : Nat) (ht : (id, t) ∈ c.pend)
    (s : Server) (fl : Flags) (what : JV) (fuel : Nat) (ops : List RegOp) (hr : s.reg = regRun [] ops) (n : Bytes)
    (content : Members JV) (hss : StrictSorted content) (hn : registered ops n = some (help (.obj content)))
    (topic : Bytes) (v : JV) (hv : lookup content topic = some v) (hd : defd v = true) (rest : List JV) (ctx : JV)
    (hctx : ctx = .undef ∨ ∃ cx, ctx = .obj cx) :
    Completes s fl what (fuel + 2) c v2 id t n (.arr (.str topic :: rest)) ctx ⟨v, false⟩ := by
  have hm : Rpc.memberOf (.obj content) topic = v := by
    unfold Rpc.memberOf
    dsimp only
    rw [Obj.member_eq_lookup hss, hv]; rfl
  have h := C119_call_partial v2 cops hs c hcl id t ht s fl what fuel ops hr n _ ((help_computes (.obj content)) ▸ hn)
    (.arr (.str topic :: rest)) (.arr (.str topic :: rest)) ctx (.array _) hctx
  simp only [firstOf, textOf, hm] at h
  exact h hd

/-- **C148, violation.** A topic without an entry is not reported: with version 2 the answer is no response for the client and the call stays pending;
with version 1 the call ends with the error null. -/
theorem C148_violation_help (s : Server) (fl : Flags) (what : JV) (fuel : Nat) (ops : List RegOp) (hr : s.reg = regRun [] ops) (n : Bytes)
    (content : Members JV) (hss : StrictSorted content) (hn : registered ops n = some (help (.obj content)))
    (topic : Bytes) (hv : lookup content topic = none) (rest : List JV) (id : Nat) (c : Client) :
    (∃ r m o, serve s fl what takes (fuel + 2) (callMsg true id n (.arr (.str topic :: rest)) .undef) = some r ∧ r.out = [m] ∧ respObj m = some o ∧
      receive c o = .ok c) ∧
    ∃ r m o, serve s fl what takes (fuel + 2) (callMsg false id n (.arr (.str topic :: rest)) .undef) = some r ∧ r.out = [m] ∧ respObj m = some o ∧
      classify o = .response (.num (.uint id)) ⟨.null, true⟩ := by
  have hm : Rpc.memberOf (.obj content) topic = .undef := by
    unfold Rpc.memberOf
    dsimp only
    rw [Obj.member_eq_lookup hss, hv]; rfl
  have g := fun v2 => serve_computes s fl what fuel ops hr n _ ((help_computes (.obj content)) ▸ hn) v2 id (.arr (.str topic :: rest)) (.arr (.str topic :: rest)) .undef
    (.array _) (.inl rfl)
  simp only [firstOf, textOf, hm] at g
  constructor
  · obtain ⟨r, e, ho⟩ := g true
    refine ⟨r, _, _, e, ho, rfl, ?_⟩
    unfold receive
    rw [(C86_violation_undefined (.num (.uint id)) rfl _).1]
  · obtain ⟨r, e, ho⟩ := g false
    exact ⟨r, _, _, e, ho, rfl, (C86_violation_undefined (.num (.uint id)) rfl _).2⟩

/-- **C148, list of methods** without a proxy: every registered name once and nothing else. -/
theorem C148_list (v2 : Bool) (cops : List COp) (hs : ∀ o ∈ cops, sends o = true) (c : Client)
    (hcl : crun { ver := some v2 } cops = .ok c) (id t : Nat) (ht : (id, t) ∈ c.pend)
    (s : Server) (fl : Flags) (what : JV) (fuel : Nat) (ops : List RegOp) (hr : s.reg = regRun [] ops) (n : Bytes)
    (hn : registered ops n = some (listMethods s.reg)) (args args' ctx : JV)
    (hargs : ArgsOf fl.named args args') (hctx : ctx = .undef ∨ ∃ cx, ctx = .obj cx) :
    ∃ names : List Bytes, names.Nodup ∧ (∀ k, k ∈ names ↔ (registered ops k).isSome) ∧
      Completes s fl what (fuel + 2) c v2 id t n args ctx ⟨.arr (names.map .str), false⟩ := by
  refine ⟨(regRun [] ops).map (·.1), (C118_names ops).1, (C118_names ops).2, ?_⟩
  have hp : listMethods s.reg = computes fun _ => .inl (.arr (s.reg.map fun e => .str e.1), .undef) := rfl
  rw [hp] at hn
  have h := C119_call_partial v2 cops hs c hcl id t ht s fl what fuel ops hr n _ hn args args' ctx hargs hctx rfl
  simp only [callResult, hr] at h
  rw [List.map_map]
  exact h

/-! ### List of methods with a proxy -/

theorem perform_later (l : List JV) : ∀ (r : Req) (fuel : Nat), r.cbs = false → r.sent = true →
    perform takes (l.length + fuel) r (l.map fun v => .setResult v .undef) = some (r, false) := by
  induction l with
  | nil => intro r fuel _ _; simp [perform]
  | cons v l ih =>
    intro r fuel h1 h2
    have e : (v :: l).length + fuel = (l.length + fuel) + 1 := by simp; omega
    rw [e, List.map_cons]
    simp only [perform, prep, h1, h2, Bool.false_eq_true, if_false, Bool.not_true, Bool.and_false]
    exact ih r fuel h1 h2

theorem perform_first (v : JV) (l : List JV) (r : Req) (fuel : Nat) (hc : r.cbs = false) (hs : r.sent = false) (ha : answerable r.id = true) :
    ∃ r', perform takes (l.length + fuel + 2) r ((v :: l).map fun v => .setResult v .undef) = some (r', false) ∧
      r'.out = r.out ++ [.result (resultMsg r.v2 r.id v .undef)] := by
  rw [List.map_cons]
  simp only [perform, prep, hc, hs, ha, Bool.false_eq_true, if_false, Bool.not_false, Bool.and_true, if_true, takes, Option.isNone_some, Bool.or_self]
  rw [show l.length + fuel + 1 = l.length + (fuel + 1) from by omega]
  refine ⟨_, perform_later l _ (fuel + 1) ?_ ?_, ?_⟩
  · rfl
  · rfl
  · rfl

/-- A call of a method which sets results, one or more: the first one completes the call. -/
theorem completes_first (v2 : Bool) (cops : List COp) (hs : ∀ o ∈ cops, sends o = true) (c : Client)
    (hcl : crun { ver := some v2 } cops = .ok c) (id t : Nat) (ht : (id, t) ∈ c.pend)
    (s : Server) (fl : Flags) (what : JV) (ops : List RegOp) (hr : s.reg = regRun [] ops) (n : Bytes) (m : Method)
    (hn : registered ops n = some m) (args args' ctx : JV) (hargs : ArgsOf fl.named args args') (hctx : ctx = .undef ∨ ∃ cx, ctx = .obj cx)
    (v : JV) (hv : defd v = true) (l : List JV) (fuel : Nat)
    (hm : m ⟨.str n, args', .num (.uint id), ctx, if v2 then .str (ascii "2.0") else .undef⟩ = ⟨(v :: l).map fun v => .setResult v .undef, some true⟩) :
    Completes s fl what (l.length + fuel + 2) c v2 id t n args ctx ⟨v, false⟩ := by
  obtain ⟨ml, e, hss, h1, h2, h3, h4, h5⟩ := callMsg_fields v2 id n args ctx
  have hc := C118_called s fl what takes (l.length + fuel + 2) ml hss ops hr n h1 (ctx_ok h1 h4 hctx) _ hn args' (by rw [h2]; exact hargs)
  dsimp only at hc
  rw [h3, h4, h5, hm] at hc
  have hv2 : isDef (if v2 then .str (ascii "2.0") else .undef) = v2 := by cases v2 <;> rfl
  rw [hv2] at hc
  obtain ⟨r', e1, ho⟩ := perform_first v l (fresh (.num (.uint id)) v2 fl.post fl.pre true) fuel rfl rfl rfl
  dsimp only at hc
  rw [e1] at hc
  have hcls := (C86_understood_partial v2 (.num (.uint id)) rfl v .undef hv).1
  refine ⟨r', .result (resultMsg v2 (.num (.uint id)) v .undef), resultMsg v2 (.num (.uint id)) v .undef, by rw [e]; exact hc, ho, rfl, ?_⟩
  rw [receive_of hcls]
  exact (C60_response v2 cops hs c hcl id _).1 t ht

/-- What the proxy did with the forwarded request: messages it handed out, and whether it took the request. -/
def ProxyDid (px : Method) (srv : Bool) (fuel : Nat) (p : Parsed) (out : List Msg) (took : Bool) : Prop :=
  ∃ r b, perform takes fuel { (create {} p).2 with srv := srv } (px (create {} p).1).ops = some (r, b) ∧ r.out = out ∧ (px (create {} p).1).ret = some took

theorem listVia_ops (reg : List (Bytes × Method)) (px : Method) (srv : Bool) (fuel : Nat) (p : Parsed) (out : List Msg) (took : Bool)
    (h : ProxyDid px srv fuel p out took) :
    listVia reg px srv fuel p = ⟨(out.map (listedWith (reg.map fun e : Bytes × Method => JV.str e.1)) ++
      if took then [] else [JV.arr (reg.map fun e : Bytes × Method => JV.str e.1)]).map (fun v => .setResult v .undef), some true⟩ := by
  obtain ⟨r, b, h1, h2, h3⟩ := h
  unfold listVia
  dsimp only
  unfold takes at h1
  rw [h1]
  dsimp only
  rw [h3, ← h2]
  cases took <;> simp [List.map_map, Function.comp_def]

theorem map_str_filter (own : List Bytes) (l : List JV) (h : ∀ v ∈ l, isDef v = true) :
    (own.map JV.str ++ l).filter isDef = own.map JV.str ++ l := by
  rw [List.filter_eq_self]
  intro v hv
  rcases List.mem_append.1 hv with h1 | h1
  · obtain ⟨k, _, rfl⟩ := List.mem_map.1 h1; rfl
  · exact h v h1

/-- The names known to the proxied server, as its answer carries them. -/
theorem listedWith_result (own : List Bytes) (v2 : Bool) (id ctx : JV) (names : List JV) (hn : ∀ v ∈ names, isDef v = true) :
    listedWith (own.map .str) (.result (resultMsg v2 id (.arr names) ctx)) = .arr (own.map .str ++ names) := by
  have h1 : Rpc.memberOf (resultMsg v2 id (.arr names) ctx) (ascii "result") = .arr names := by
    unfold resultMsg
    split <;> rw [member_build] <;> exact getD_filter _
  unfold listedWith msgBody
  dsimp only
  rw [h1]
  unfold itemsOf
  dsimp only
  rw [map_str_filter own names hn]

theorem listedWith_error (own : List Bytes) (v2 : Bool) (id e : JV) :
    listedWith (own.map .str) (.error (errorMsg v2 id e)) = .arr (own.map .str) := by
  have h1 : itemsOf (Rpc.memberOf (errorMsg v2 id e) (ascii "result")) = [] := by
    unfold errorMsg
    split <;> rw [member_build] <;> rfl
  unfold listedWith msgBody
  dsimp only
  rw [h1, map_str_filter own [] (by simp), List.append_nil]

theorem listedWith_beat (own : List Bytes) : listedWith (own.map .str) .beat = .arr (own.map .str) := by
  unfold listedWith msgBody
  dsimp only
  rw [show itemsOf (Rpc.memberOf .undef (ascii "result")) = [] from rfl, map_str_filter own [] (by simp), List.append_nil]

/-- **C148, list of methods with a proxy**: when the proxy answers the forwarded request with a list of names (whatever it does with the
request later), the caller gets the registered names, each once, followed by that list; when it answers with an error or does not take the request, the registered names alone. -/
theorem C148_list_proxy (v2 : Bool) (cops : List COp) (hs : ∀ o ∈ cops, sends o = true) (c : Client)
    (hcl : crun { ver := some v2 } cops = .ok c) (id t : Nat) (ht : (id, t) ∈ c.pend)
    (s : Server) (fl : Flags) (what : JV) (ops : List RegOp) (hr : s.reg = regRun [] ops) (n : Bytes)
    (px : Method) (srv : Bool) (pf : Nat) (hn : registered ops n = some (listVia s.reg px srv pf)) (args args' ctx : JV)
    (hargs : ArgsOf fl.named args args') (hctx : ctx = .undef ∨ ∃ cx, ctx = .obj cx) (out : List Msg) (took : Bool)
    (hp : ProxyDid px srv pf ⟨.str n, args', .num (.uint id), ctx, if v2 then .str (ascii "2.0") else .undef⟩ out took) :
    ∃ own : List Bytes, own.Nodup ∧ (∀ k, k ∈ own ↔ (registered ops k).isSome) ∧
      (∀ names pctx rest fuel, (∀ v ∈ names, isDef v = true) → out = .result (resultMsg v2 (.num (.uint id)) (.arr names) pctx) :: rest →
        Completes s fl what (rest.length + 1 + fuel + 2) c v2 id t n args ctx ⟨.arr (own.map .str ++ names), false⟩) ∧
      (∀ e rest fuel, out = .error (errorMsg v2 (.num (.uint id)) e) :: rest →
        Completes s fl what (rest.length + 1 + fuel + 2) c v2 id t n args ctx ⟨.arr (own.map .str), false⟩) ∧
      (∀ fuel, out = [] → took = false → Completes s fl what (fuel + 2) c v2 id t n args ctx ⟨.arr (own.map .str), false⟩) := by
  have hm := listVia_ops s.reg px srv pf _ out took hp
  obtain ⟨own, hown⟩ : ∃ own : List Bytes, own = s.reg.map (fun e : Bytes × Method => e.1) := ⟨_, rfl⟩
  have hreg : (s.reg.map fun e => JV.str e.1) = own.map .str := by rw [hown, List.map_map]; rfl
  rw [hreg] at hm
  have hlen : ∀ (rest : List Msg) (f : Msg → JV) (x : JV), (rest.map f ++ if took then [] else [x]).length ≤ rest.length + 1 := by
    intro rest f x; cases took <;> simp
  refine ⟨own, by rw [hown, hr]; exact (C118_names ops).1, by rw [hown, hr]; exact (C118_names ops).2, ?_, ?_, ?_⟩
  · intro names pctx rest fuel hd ho
    rw [ho, List.map_cons, List.cons_append, listedWith_result _ _ _ _ _ hd] at hm
    have h := completes_first v2 cops hs c hcl id t ht s fl what ops hr n _ hn args args' ctx hargs hctx _ rfl _
      (rest.length + 1 + fuel - (rest.map (listedWith (own.map .str)) ++ if took then [] else [JV.arr (own.map .str)]).length) hm
    have e : ∀ a : Nat, a ≤ rest.length + 1 → a + (rest.length + 1 + fuel - a) + 2 = rest.length + 1 + fuel + 2 := by intro a ha; omega
    rw [e _ (hlen rest _ _)] at h
    exact h
  · intro er rest fuel ho
    rw [ho, List.map_cons, List.cons_append, listedWith_error] at hm
    have h := completes_first v2 cops hs c hcl id t ht s fl what ops hr n _ hn args args' ctx hargs hctx _ rfl _
      (rest.length + 1 + fuel - (rest.map (listedWith (own.map .str)) ++ if took then [] else [JV.arr (own.map .str)]).length) hm
    have e : ∀ a : Nat, a ≤ rest.length + 1 → a + (rest.length + 1 + fuel - a) + 2 = rest.length + 1 + fuel + 2 := by intro a ha; omega
    rw [e _ (hlen rest _ _)] at h
    exact h
  · intro fuel ho hto
    subst hto
    rw [ho, List.map_nil, List.nil_append, if_neg Bool.false_ne_true] at hm
    have h := completes_first v2 cops hs c hcl id t ht s fl what ops hr n _ hn args args' ctx hargs hctx
      (.arr (own.map .str)) rfl [] fuel hm
    rw [List.length_nil, Nat.zero_add] at h
    exact h

/-- A proxy which reports that it works on the request before it answers. -/
def beatsFirst (names : List JV) : Method := fun _ => ⟨[.beat, .setResult (.arr names) .undef], some true⟩

theorem beatsFirst_did (names : List JV) (srv : Bool) (p : Parsed) (ha : answerable p.id = true) :
    ∃ rest, ProxyDid (beatsFirst names) srv 3 p (.beat :: rest) true ∧
      rest = [.result (resultMsg (isDef p.version) p.id (.arr names) .undef)] := by
  refine ⟨_, ?_, rfl⟩
  unfold ProxyDid beatsFirst
  simp only [perform, prep, create, takes, ha, Bool.not_false, Bool.and_true, Bool.false_eq_true, if_false, if_true, Option.isNone_some, Bool.or_self]
  exact ⟨_, _, rfl, rfl, trivial⟩

/-- **C148, violation.** When the proxy reports by `hearthbeat` that it works on the forwarded request, the caller is answered at once with the
registered names alone; the names the proxy sends then are lost. -/
theorem C148_violation_beat (v2 : Bool) (cops : List COp) (hs : ∀ o ∈ cops, sends o = true) (c : Client)
    (hcl : crun { ver := some v2 } cops = .ok c) (id t : Nat) (ht : (id, t) ∈ c.pend)
    (s : Server) (fl : Flags) (what : JV) (ops : List RegOp) (hr : s.reg = regRun [] ops) (n : Bytes)
    (names : List JV) (srv : Bool) (hn : registered ops n = some (listVia s.reg (beatsFirst names) srv 3)) (args args' ctx : JV)
    (hargs : ArgsOf fl.named args args') (hctx : ctx = .undef ∨ ∃ cx, ctx = .obj cx) (fuel : Nat) :
    Completes s fl what (fuel + 3) c v2 id t n args ctx ⟨.arr (s.reg.map fun e => .str e.1), false⟩ := by
  obtain ⟨rest, hp, hrest⟩ := beatsFirst_did names srv ⟨.str n, args', .num (.uint id), ctx, if v2 then .str (ascii "2.0") else .undef⟩ rfl
  have hm := listVia_ops s.reg _ srv 3 _ _ _ hp
  obtain ⟨own, hown⟩ : ∃ own : List Bytes, own = s.reg.map (fun e : Bytes × Method => e.1) := ⟨_, rfl⟩
  have hreg : (s.reg.map fun e => JV.str e.1) = own.map .str := by rw [hown, List.map_map]; rfl
  rw [hreg, hrest] at hm
  rw [List.map_cons, listedWith_beat, List.map_cons, List.map_nil, if_pos rfl, List.append_nil] at hm
  have h := completes_first v2 cops hs c hcl id t ht s fl what ops hr n _ hn args args' ctx hargs hctx
    (.arr (own.map .str)) rfl [_] fuel hm
  rw [hreg]
  have e : [listedWith (own.map .str) (.result (resultMsg (isDef (if v2 then .str (ascii "2.0") else .undef)) (.num (.uint id)) (.arr names) .undef))].length
    + fuel + 2 = fuel + 3 := by rw [List.length_singleton]; omega
  rw [e] at h
  exact h

/-- A proxy which answers with a list. -/
def answersWith (names : List JV) : Method := fun _ => ⟨[.setResult (.arr names) .undef], some true⟩

theorem answersWith_did (names : List JV) (srv : Bool) (p : Parsed) (ha : answerable p.id = true) :
    ProxyDid (answersWith names) srv 2 p [.result (resultMsg (isDef p.version) p.id (.arr names) .undef)] true := by
  unfold ProxyDid answersWith
  simp only [perform, prep, create, takes, ha, Bool.not_false, Bool.and_true, Bool.false_eq_true, if_false, if_true, Option.isNone_some, Bool.or_self]
  exact ⟨_, _, rfl, rfl, trivial⟩

/-- **C148, violation.** A name registered on both servers is listed twice; so is the name of this very method when the other server has it as well. -/
theorem C148_violation_twice (v2 : Bool) (cops : List COp) (hs : ∀ o ∈ cops, sends o = true) (c : Client)
    (hcl : crun { ver := some v2 } cops = .ok c) (id t : Nat) (ht : (id, t) ∈ c.pend)
    (s : Server) (fl : Flags) (what : JV) (ops : List RegOp) (hr : s.reg = regRun [] ops) (n : Bytes) (srv : Bool)
    (hn : registered ops n = some (listVia s.reg (answersWith [.str n]) srv 2)) (ctx : JV) (hctx : ctx = .undef ∨ ∃ cx, ctx = .obj cx) (fuel : Nat) :
    ∃ a b, Completes s fl what (fuel + 3) c v2 id t n (.arr []) ctx ⟨.arr (a ++ .str n :: b ++ [.str n]), false⟩ := by
  have hv2 : isDef (if v2 then .str (ascii "2.0") else .undef) = v2 := by cases v2 <;> rfl
  have hd := answersWith_did [.str n] srv ⟨.str n, .arr [], .num (.uint id), ctx, if v2 then .str (ascii "2.0") else .undef⟩ rfl
  dsimp only at hd
  rw [hv2] at hd
  obtain ⟨own, _, hmem, h, _⟩ := C148_list_proxy v2 cops hs c hcl id t ht s fl what ops hr n _ srv 2 hn (.arr []) (.arr []) ctx (.array _) hctx _ _ hd
  obtain ⟨a, b, hab⟩ := List.append_of_mem ((hmem n).2 (by rw [hn]; rfl))
  refine ⟨a.map .str, b.map .str, ?_⟩
  have h' := h [.str n] .undef [] fuel (by simp [isDef, defd]) rfl
  rw [hab] at h'
  simpa [Nat.add_comm, Nat.add_left_comm] using h'

/-! Servers the statements are about: the methods registered, a list of them with and without a proxy. -/
example : registered [.add [104] (help (.obj [([97], .str [120])])), .add [112] ping] [112] = some ping ∧ lookup [([97], JV.str [120])] [97] = some (.str [120]) ∧
    lookup [([97], JV.str [120])] [98] = none := ⟨rfl, by decide +kernel, by decide +kernel⟩
example (m : Method) : regRun [] [.add [108] (listMethods [([97], m), ([108], m)]), .add [97] m] = [([97], m), ([108], listMethods [([97], m), ([108], m)])] ∧
    registered [.add [108] (listMethods [([97], m), ([108], m)]), .add [97] m] [108] =
      some (listMethods (regRun [] [.add [108] (listMethods [([97], m), ([108], m)]), .add [97] m])) := ⟨rfl, rfl⟩
example (m px : Method) : registered [.add [108] (listVia [([97], m), ([108], m)] px true 3), .add [97] m] [108] =
      some (listVia (regRun [] [.add [108] (listVia [([97], m), ([108], m)] px true 3), .add [97] m]) px true 3) := rfl
example : ∃ rest, ProxyDid (beatsFirst [.str [120]]) false 3 ⟨.str [108], .arr [], .num (.uint 1), .undef, .undef⟩ (.beat :: rest) true :=
  ⟨_, (beatsFirst_did [.str [120]] false ⟨.str [108], .arr [], .num (.uint 1), .undef, .undef⟩ rfl).choose_spec.1⟩

/-! ## C149: selection of pending calls -/

/-- The old map after the identifiers were moved. -/
def movedAway (pend : List (Nat × Nat)) (ids : List Nat) : List (Nat × Option Nat) :=
  pend.map fun e => (e.1, if e.1 ∈ ids then none else some e.2)

theorem moveOut_moved (pend : List (Nat × Nat)) (done : List Nat) (id : Nat) :
    moveOut (movedAway pend done) id = movedAway pend (done ++ [id]) := by
  unfold moveOut movedAway
  rw [List.map_map]
  apply List.map_congr_left
  intro e _
  by_cases h : e.1 = id <;> simp [h]

theorem find_moved {pend : List (Nat × Nat)} {done : List Nat} {id : Nat} {x : Nat × Option Nat}
    (h : (movedAway pend done).find? (fun e => e.1 == id) = some x) : x.1 = id ∧ ∃ t, (id, t) ∈ pend ∧ x.2 = if id ∈ done then none else some t := by
  have h1 := List.mem_of_find?_eq_some h
  have h2 := List.find?_some h
  obtain ⟨e, he, rfl⟩ := List.mem_map.1 h1
  have h3 : e.1 = id := by simpa using h2
  subst h3
  exact ⟨rfl, e.2, he, rfl⟩

/-- The new map holds the calls of the identifiers processed. -/
def KeptOf (pend : List (Nat × Nat)) (done : List Nat) (new : List (Nat × Option Nat)) : Prop :=
  (new.map (·.1)).Nodup ∧ ∀ id o, (id, o) ∈ new ↔ id ∈ done ∧ ∃ t, o = some t ∧ (id, t) ∈ pend

theorem nodup_fst {l : List (Nat × Nat)} (hu : (l.map (·.1)).Nodup) {id a b : Nat} (h1 : (id, a) ∈ l) (h2 : (id, b) ∈ l) : a = b := by
  induction l with
  | nil => cases h1
  | cons e l ih =>
    rw [List.map_cons, List.nodup_cons] at hu
    rcases List.mem_cons.1 h1 with h1 | h1 <;> rcases List.mem_cons.1 h2 with h2 | h2
    · rw [← h1] at h2; exact (Prod.mk.inj h2).2.symm
    · exact absurd (List.mem_map.2 ⟨_, h2, by rw [← h1]⟩) hu.1
    · exact absurd (List.mem_map.2 ⟨_, h1, by rw [← h2]⟩) hu.1
    · exact ih hu.2 h1 h2

theorem keepLoop_spec (pend : List (Nat × Nat)) (hu : (pend.map (·.1)).Nodup) : ∀ (ids done : List Nat) (new : List (Nat × Option Nat)), KeptOf pend done new →
    (keepLoop ids (movedAway pend done) new).1 = movedAway pend (done ++ ids) ∧ KeptOf pend (done ++ ids) (keepLoop ids (movedAway pend done) new).2 := by
  have huniq : ∀ {id a b}, (id, a) ∈ pend → (id, b) ∈ pend → a = b := fun h1 h2 => nodup_fst hu h1 h2
  intro ids
  induction ids with
  | nil => intro done new h; simpa [keepLoop] using h
  | cons id ids ih =>
    intro done new h
    unfold keepLoop
    have e : done ++ id :: ids = (done ++ [id]) ++ ids := by simp
    split
    · next hf =>
      have hno : ∀ t, (id, t) ∉ pend := by
        intro t ht
        rw [List.find?_eq_none] at hf
        have := hf (id, if id ∈ done then none else some t) (List.mem_map.2 ⟨(id, t), ht, rfl⟩)
        simp at this
      have h' : KeptOf pend (done ++ [id]) new := by
        refine ⟨h.1, fun i o => ?_⟩
        rw [h.2]
        constructor
        · rintro ⟨a, b⟩; exact ⟨List.mem_append_left _ a, b⟩
        · rintro ⟨a, t, ho, ht⟩
          rcases List.mem_append.1 a with a | a
          · exact ⟨a, t, ho, ht⟩
          · rw [List.mem_singleton.1 a] at ht; exact absurd ht (hno t)
      have hmv : movedAway pend done = movedAway pend (done ++ [id]) := by
        unfold movedAway
        apply List.map_congr_left
        intro x hx
        have : x.1 ≠ id := fun hh => hno x.2 (by rw [← hh]; exact hx)
        simp [this]
      rw [hmv, e]
      exact ih _ _ h'
    · next x hf =>
      obtain ⟨hx1, t, ht, hx2⟩ := find_moved hf
      rw [moveOut_moved, e]
      apply ih
      by_cases hd : id ∈ done
      · have hin : (id, some t) ∈ new := (h.2 _ _).2 ⟨hd, t, rfl, ht⟩
        have : (new.find? (fun y => y.1 == id)).isSome = true := by
          rw [List.find?_isSome]; exact ⟨_, hin, by simp⟩
        rw [if_pos this]
        refine ⟨h.1, fun i o => ?_⟩
        rw [h.2]
        constructor
        · rintro ⟨a, b⟩; exact ⟨List.mem_append_left _ a, b⟩
        · rintro ⟨a, b⟩
          rcases List.mem_append.1 a with a | a
          · exact ⟨a, b⟩
          · rw [List.mem_singleton.1 a] at b ⊢; exact ⟨hd, b⟩
      · have hnew : ∀ o, (id, o) ∉ new := fun o ho => hd ((h.2 _ _).1 ho).1
        have : (new.find? (fun y => y.1 == id)).isSome = false := by
          rw [Bool.eq_false_iff]
          intro hh
          rw [List.find?_isSome] at hh
          obtain ⟨y, hy, hyi⟩ := hh
          have : y.1 = id := by simpa using hyi
          exact hnew y.2 (by rw [← this]; exact hy)
        rw [this, if_neg (by simp)]
        rw [hx2, if_neg hd]
        refine ⟨?_, fun i o => ?_⟩
        · rw [List.map_cons, List.nodup_cons]
          refine ⟨fun hm => ?_, h.1⟩
          obtain ⟨y, hy, hyi⟩ := List.mem_map.1 hm
          have hyi' : y.1 = id := hyi
          exact hnew y.2 (by rw [← hyi']; exact hy)
        · rw [List.mem_cons, h.2]
          constructor
          · rintro (hh | ⟨a, b⟩)
            · obtain ⟨rfl, rfl⟩ := Prod.mk.inj hh
              exact ⟨by simp, t, rfl, ht⟩
            · exact ⟨List.mem_append_left _ a, b⟩
          · rintro ⟨a, t', rfl, b⟩
            rcases List.mem_append.1 a with a | a
            · exact .inr ⟨a, t', rfl, b⟩
            · rw [List.mem_singleton.1 a] at b ⊢
              rw [huniq b ht]; exact .inl rfl

/-- **C149**: whatever identifiers are given (in any order, repeated, unknown), the map keeps the pending calls of these identifiers, each once
and with its call, and every other pending call is handed out once. No call is lost, none is both kept and handed out. -/
theorem C149_filter (pend : List (Nat × Nat)) (hu : (pend.map (·.1)).Nodup) (ids : List Nat) :
    let r := filterCalls ids (pend.map fun e => (e.1, some e.2))
    (r.1.map (·.1)).Nodup ∧ (∀ id o, (id, o) ∈ r.1 ↔ id ∈ ids ∧ ∃ t, o = some t ∧ (id, t) ∈ pend) ∧
      r.2 = (pend.filter fun e => decide (e.1 ∉ ids)).map (·.2) := by
  have h0 : KeptOf pend [] [] := ⟨List.nodup_nil, fun id o => by simp⟩
  have e0 : (pend.map fun e => (e.1, some e.2)) = movedAway pend [] := by unfold movedAway; simp
  obtain ⟨h1, h2⟩ := keepLoop_spec pend hu ids [] [] h0
  rw [List.nil_append] at h1 h2
  dsimp only
  unfold filterCalls
  dsimp only
  rw [e0, h1]
  refine ⟨h2.1, h2.2, ?_⟩
  unfold movedAway
  clear hu h1 h2 h0 e0
  induction pend with
  | nil => rfl
  | cons e pend ih =>
    rw [List.map_cons, List.filterMap_cons, List.filter_cons]
    by_cases h : e.1 ∈ ids
    · simp only [h, if_true, not_true, decide_false, Bool.false_eq_true, if_false]; exact ih
    · simp only [h, if_false, not_false_iff, decide_true, if_true, List.map_cons]; rw [← ih]

/-- Three calls, two kept, one of them named twice. -/
example : filterCalls [3, 9, 3, 1] [(1, some 10), (2, some 11), (3, some 12)] = ([(1, some 10), (3, some 12)], [11]) := by decide +kernel

end Imt.Props
