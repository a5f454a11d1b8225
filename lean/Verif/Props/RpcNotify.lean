import Verif.Model.RpcNotify
import Verif.Props.RpcServer
/-!
# Notifications of JSON-RPC: C124, C125
-/
namespace Imt.Props
open Imt Imt.Spec Imt.Obj Imt.ObjB Imt.Rpc

/-! ### C124: contents -/

theorem notify_fields (v2 : Bool) (n : Notify) :
    ∃ l, formatNotify v2 n = .obj l ∧ StrictSorted l ∧ field l "method" = n.name ∧ field l "params" = n.data ∧
      field l "id" = (if v2 then .undef else .null) ∧ field l "context" = n.context ∧
      field l "jsonrpc" = if v2 then .str (ascii "2.0") else .undef := by
  have g : ∀ L : Members JV, ∃ l, build L = .obj l ∧ StrictSorted l ∧
      ∀ name, field l name = ((lastVal L (ascii name)).filter defd).getD .undef := by
    intro L
    obtain ⟨h1, h2⟩ := build_spec L
    exact ⟨_, rfl, h1, fun name => by unfold field; rw [h2]⟩
  unfold formatNotify
  cases v2 with
  | true =>
    obtain ⟨l, e, hs, hf⟩ := g [(ascii "method", n.name), (ascii "params", n.data), (ascii "jsonrpc", .str (ascii "2.0")),
      (ascii "context", n.context)]
    exact ⟨l, e, hs, (hf _).trans (getD_filter _), (hf _).trans (getD_filter _), (hf _).trans rfl, (hf _).trans (getD_filter _),
      (hf _).trans (getD_filter _)⟩
  | false =>
    obtain ⟨l, e, hs, hf⟩ := g [(ascii "id", .null), (ascii "method", n.name), (ascii "params", n.data),
      (ascii "context", n.context)]
    exact ⟨l, e, hs, (hf _).trans (getD_filter _), (hf _).trans (getD_filter _), (hf _).trans (getD_filter _),
      (hf _).trans (getD_filter _), (hf _).trans rfl⟩

/-- **C124, recognised**: a client takes the message for a notification, in both versions, whatever the data. -/
theorem C124_recognised (v2 : Bool) (n : Notify) : classify (formatNotify v2 n) = .notification := by
  obtain ⟨l, e, hs, _, _, hi, _⟩ := notify_fields v2 n
  rw [e]
  unfold classify
  dsimp only
  rw [memberOf_field hs, hi]
  cases v2 <;> rfl

/-- **C124, read back** (partial: notifications without a context). The receiver of the message reads the name and the data that were
sent, whatever the data. Missing: the context, which is lost (see the violation). -/
theorem C124_read_partial (v2 : Bool) (n : Notify) (hc : n.context = .undef) : ofMsg (formatNotify v2 n) = n := by
  obtain ⟨l, e, hs, hm, hp, _⟩ := notify_fields v2 n
  unfold ofMsg
  rw [e, memberOf_field hs, memberOf_field hs, hm, hp]
  obtain ⟨a, b, c⟩ := n
  cases hc
  rfl

/-- **C124 violated.** A context is written to the message but not read from it: it is lost for every notification that has one. -/
theorem C124_violation_context (v2 : Bool) (n : Notify) (hc : n.context ≠ .undef) :
    Rpc.memberOf (formatNotify v2 n) (ascii "context") = n.context ∧ ofMsg (formatNotify v2 n) = { n with context := .undef } ∧
      ofMsg (formatNotify v2 n) ≠ n := by
  obtain ⟨l, e, hs, hm, hp, _, hx, _⟩ := notify_fields v2 n
  have h : ofMsg (formatNotify v2 n) = { n with context := .undef } := by
    unfold ofMsg
    rw [e, memberOf_field hs, memberOf_field hs, hm, hp]
  refine ⟨by rw [e, memberOf_field hs, hx], h, ?_⟩
  rw [h]
  intro h2
  exact hc (congrArg Notify.context h2).symm

example : ({ name := .str [65], data := .undef, context := .obj [] } : Notify).context ≠ .undef ∧
    ({ name := .str [65], data := .obj [([1], .null)] } : Notify).context = .undef := ⟨by simp, rfl⟩

/-- **C124, executed by the server**: the server that gets the message runs the method registered under the name on the data (an
argument which is not a list as the only element of one), with the context, whatever the method, the handler and the callback do. -/
theorem C124_served (v2 : Bool) (n : Notify) (name : Bytes) (hname : n.name = .str name) (hctx : n.context = .undef ∨ ∃ c, n.context = .obj c) (s : Server) (fl : Flags) (what : JV)
    (cb : List Msg → Act) (fuel : Nat) (ops : List RegOp) (hr : s.reg = regRun [] ops) (m : Method) (hn : registered ops name = some m)
    (args : JV) (hargs : ArgsOf fl.named n.data args) :
    let p : Parsed := ⟨.str name, args, if v2 then .undef else .null, n.context, if v2 then .str (ascii "2.0") else .undef⟩
    serve s fl what cb fuel (formatNotify v2 n) =
      match perform cb fuel (fresh (if v2 then .undef else .null) v2 fl.post fl.pre true) (m p).ops with
      | none => none
      | some (r, threw) =>
        if threw || (m p).ret.isNone then
          execCatch cb fuel (errsOf s p what) (s.handler.map (· p)) r
        else some r := by
  obtain ⟨l, e, hs, hm, hp, hi, hx, hv⟩ := notify_fields v2 n
  have h := C118_called s fl what cb fuel l hs ops hr name (hm.trans hname) ⟨⟨_, hm.trans hname⟩, by rw [hx]; exact hctx⟩ m hn args (by rw [hp]; exact hargs)
  dsimp only at h ⊢
  rw [e, h, hi, hx, hv]
  cases v2 <;> rfl

example (m : Method) : ArgsOf false (.num (.uint 5)) (.arr [.num (.uint 5)]) ∧ registered [.add [65] m] [65] = some m := ⟨.num _, rfl⟩

/-! ### C124: no answer -/

/-- A request created with a function, without identifier, to which nothing was answered. -/
structure Mute (r : Req) : Prop where
  cbs : r.cbs = false
  id : answerable r.id = false
  out : responses r.out = 0

theorem mute_perform (cb : List Msg → Act) (fuel : Nat) : ∀ (r : Req) (ops : List Op) (r' : Req) (t : Bool),
    perform cb fuel r ops = some (r', t) → Mute r → Mute r' := by
  induction fuel with
  | zero =>
    intro r ops r' t h hm
    cases ops with
    | nil => cases h; exact hm
    | cons _ _ => cases h
  | succ fuel ih =>
    intro r ops r' t h hm
    cases ops with
    | nil => cases h; exact hm
    | cons op ops =>
      unfold perform at h
      have hp : prep r op = none ∨ ∃ m fin, prep r op = some (r, m, fin) ∧ IsResponse m = false ∧
          ∀ (x : Req) (b : Bool), Mute x → Mute (fin x b) := by
        cases op with
        | setResult v c => left; simp [prep, hm.cbs, hm.id]
        | setError e => left; simp [prep, hm.cbs, hm.id]
        | noResult e => left; simp [prep, hm.cbs, hm.id]
        | notify a d =>
          cases hn : r.notif with
          | false => left; simp [prep, hm.cbs, hn]
          | true =>
            right
            exact ⟨.notify a d, fun r b => { r with notif := b }, by simp [prep, hm.cbs, hn], rfl, fun x b hx => ⟨hx.cbs, hx.id, hx.out⟩⟩
        | beat => right; exact ⟨.beat, fun r _ => r, rfl, rfl, fun x b hx => hx⟩
      rcases hp with hp | ⟨m, fin, hp, hm', hf⟩
      · rw [hp] at h
        exact ih _ _ _ _ h hm
      · rw [hp] at h
        dsimp only at h
        have hm1 : Mute { r with out := r.out ++ [m] } :=
          ⟨hm.cbs, hm.id, by show responses (r.out ++ [m]) = 0; rw [responses_push, hm.out, hm']; rfl⟩
        cases hx : perform cb fuel { r with out := r.out ++ [m] } (cb (r.out ++ [m])).ops with
        | none => rw [hx] at h; cases h
        | some y =>
          rw [hx] at h
          obtain ⟨r2, t2⟩ := y
          have hm2 := ih _ _ _ _ hx hm1
          dsimp only at h
          split at h
          · split at h
            · cases h
            · split at h
              · exact ih _ _ _ _ h hm2
              · cases h; exact hm2
          · exact ih _ _ _ _ h (hf _ _ hm2)

theorem mute_catch (cb : List Msg → Act) {fuel : Nat} {e : Errs} {handler : Option Fn} {r r' : Req}
    (h : execCatch cb fuel e handler r = some r') (hm : Mute r) : Mute r' := by
  have again : ∀ {x y : Req}, Mute x → (match perform cb fuel x [.setError e.internal] with
      | some (r, false) => some r
      | _ => none) = some y → Mute y := by
    intro x y hx hy
    split at hy
    · rename_i hz
      cases hy
      exact mute_perform cb _ _ _ _ _ hz hx
    · cases hy
  have first : ∀ {x y : Req}, Mute x → (match perform cb fuel x [.setError e.internal] with
      | some (r, false) => some r
      | some (r, true) => (match perform cb fuel r [.setError e.internal] with
        | some (r, false) => some r
        | _ => none)
      | none => none) = some y → Mute y := by
    intro x y hx hy
    split at hy
    · rename_i hz
      cases hy
      exact mute_perform cb _ _ _ _ _ hz hx
    · rename_i hz
      exact again (mute_perform cb _ _ _ _ _ hz hx) hy
    · cases hy
  unfold execCatch at h
  dsimp only at h
  split at h
  · exact first hm h
  · rename_i f
    cases hx : perform cb fuel r f.ops with
    | none => rw [hx] at h; cases h
    | some y =>
      rw [hx] at h
      obtain ⟨r2, t2⟩ := y
      have hm2 := mute_perform cb _ _ _ _ _ hx hm
      dsimp only at h
      split at h
      · exact again hm2 h
      · split at h
        · cases h; exact hm2
        · exact first hm2 h

theorem mute_exec (cb : List Msg → Act) {fuel : Nat} {e : Errs} {valid : Bool} {m proxy handler : Option Fn} {r r' : Req}
    (h : exec cb fuel e valid m proxy handler r = some r') (hm : Mute r) : Mute r' := by
  have ht : ∀ {x : Req × Bool}, execTry cb fuel e valid m proxy r = some x → Mute x.1 := by
    intro x hx
    have hm1 : Mute { r with srv := true } := ⟨hm.cbs, hm.id, hm.out⟩
    unfold execTry at hx
    dsimp only at hx
    split at hx
    · split at hx
      · rename_i f
        cases hy : perform cb fuel { r with srv := true } f.ops with
        | none => rw [hy] at hx; cases hx
        | some y => rw [hy] at hx; cases hx; exact mute_perform cb _ _ _ _ _ hy hm1
      · split at hx
        · exact mute_perform cb _ _ _ _ _ hx hm1
        · rename_i p
          cases hy : perform cb fuel { r with srv := true } p.ops with
          | none => rw [hy] at hx; cases hx
          | some y =>
            rw [hy] at hx
            have hm2 := mute_perform cb _ _ _ _ _ hy hm1
            dsimp only at hx
            split at hx
            · cases hx; exact hm2
            · split at hx
              · cases hx; exact hm2
              · exact mute_perform cb _ _ _ _ _ hx hm2
    · exact mute_perform cb _ _ _ _ _ hx hm1
  unfold exec at h
  cases hy : execTry cb fuel e valid m proxy r with
  | none => rw [hy] at h; cases h
  | some y =>
    rw [hy] at h
    have := ht hy
    obtain ⟨r2, t⟩ := y
    cases t with
    | false => cases h; exact this
    | true => exact mute_catch cb h this

/-- **C124, never answered**: whatever the methods, the proxy, the handler and the callback do, while the server runs the notification, later,
and when the request is released, nothing is answered. -/
theorem C124_silent (v2 : Bool) (n : Notify) (s : Server) (fl : Flags) (what err : JV) (cb : List Msg → Act) (later : List Op) (f1 f2 f3 : Nat)
    (r r1 r2 : Req) (t : Bool) (h : serve s fl what cb f1 (formatNotify v2 n) = some r) (hl : perform cb f2 r later = some (r1, t))
    (hd : destroy cb f3 err r1 = some r2) : responses r2.out = 0 := by
  obtain ⟨l, e, hs, _, _, hi, _⟩ := notify_fields v2 n
  have h0 : Mute (create fl (parseReq (formatNotify v2 n))).2 := by
    refine ⟨rfl, ?_, rfl⟩
    show answerable (Rpc.memberOf (formatNotify v2 n) (ascii "id")) = false
    rw [e, memberOf_field hs, hi]
    cases v2 <;> rfl
  have h1 := mute_perform cb _ _ _ _ _ hl (mute_exec cb h h0)
  unfold destroy at hd
  split at hd
  · cases hd; exact h1.out
  · cases hx : perform cb f3 r1 [.noResult err] with
    | none => rw [hx] at hd; cases hd
    | some y => rw [hx] at hd; cases hd; exact (mute_perform cb _ _ _ _ _ hx h1).out

/-- A notification of a method that answers twice and throws. -/
example : (serve { reg := [([65], fun _ => ⟨[.setResult .null .undef, .setError .null, .beat], none⟩)], fmt := defaultFmt } {} .undef takes 9
    (formatNotify false { name := .str [65], data := .bool true })).map (·.out) = some [.beat] := by decide +kernel

/-- **C124, received by a client and executed** (partial: the context is lost): the method runs on the data, without a context. -/
theorem C124_received_partial (v2 : Bool) (n : Notify) (name : Bytes) (hname : n.name = .str name) (s : Server) (what : JV)
    (fuel : Nat) (ops : List RegOp) (hr : s.reg = regRun [] ops) (m : Method) (hn : registered ops name = some m)
    (args : JV) (hargs : ArgsOf false n.data args) :
    let p : Parsed := ⟨.str name, args, .undef, .undef, .undef⟩
    serveNotify s what fuel (ofMsg (formatNotify v2 n)) =
      match perform (fun _ => ⟨[], some false⟩) fuel (fresh .undef false false false true) (m p).ops with
      | none => none
      | some (r, threw) =>
        if threw || (m p).ret.isNone then
          execCatch (fun _ => ⟨[], some false⟩) fuel (errsOf s p what) (s.handler.map (· p)) r
        else some r := by
  obtain ⟨l, e, hs, hm, hp, _⟩ := notify_fields v2 n
  have ho : ofMsg (formatNotify v2 n) = { name := n.name, data := n.data } := by
    unfold ofMsg
    rw [e, memberOf_field hs, memberOf_field hs, hm, hp]
  rw [ho]
  have hc : create {} (asRequest { name := n.name, data := n.data }) = (⟨.str name, args, .undef, .undef, .undef⟩,
      { cbs := false, id := .undef, v2 := false, post := false, notif := false }) := by
    simp only [create, asRequest, hname, argsOf_unique hargs]
    rfl
  have hv : validReq ⟨.str name, args, .undef, .undef, .undef⟩ = true := by
    have : ∀ d a, ArgsOf false d a → validReq ⟨.str name, a, .undef, .undef, .undef⟩ = true := by
      intro d a h
      cases h <;> rfl
    exact this _ _ hargs
  dsimp only
  unfold serveNotify exec execTry
  dsimp only
  simp only [hc, hv, if_true, nameOf, hr, C118_registry, hn, Option.map_some, fresh]
  cases perform (fun _ => ⟨[], some false⟩) fuel { cbs := false, id := .undef, v2 := false, post := false, srv := true, notif := false }
    (m ⟨.str name, args, .undef, .undef, .undef⟩).ops with
  | none => rfl
  | some x =>
    obtain ⟨r, t⟩ := x
    dsimp only [Option.map_some]
    cases h : (t || (m ⟨.str name, args, .undef, .undef, .undef⟩).ret.isNone) <;> simp

/-- A method registered under the name of the notification, and what it is given. -/
example (m : Method) : registered [.add [65] m] [65] = some m ∧ ArgsOf false (.bool true) (.arr [.bool true]) :=
  ⟨rfl, .bool true⟩

/-- **C124.** A message whose method is not a string, received by a client and given to the server: no method runs and nothing is answered,
whatever is registered. -/
theorem C124_nameless (js : JV) (h : ∀ t, Rpc.memberOf js (ascii "method") ≠ .str t) (s : Server) (what : JV) (fuel : Nat) :
    (serveNotify s what (fuel + 1) (ofMsg js)).map (·.out) = some [] := by
  have hv : validReq (create {} (asRequest (ofMsg js))).1 = false := by
    have : nameOk (Rpc.memberOf js (ascii "method")) = false := by
      cases e : Rpc.memberOf js (ascii "method") with
      | str t => exact absurd e (h t)
      | _ => rfl
    show (nameOk (Rpc.memberOf js (ascii "method")) && _ && _) = false
    rw [this]
    rfl
  unfold serveNotify
  dsimp only
  rw [hv]
  have hp : ∀ (c : Act) (e : JV) (r : Req), r.cbs = false → answerable r.id = false →
      perform (fun _ => c) (fuel + 1) r [.setError e] = some (r, false) := by
    intro c e r h1 h2
    rw [perform]
    simp only [prep, h1, h2, Bool.false_and, Bool.false_eq_true, if_false]
    rw [perform]
  unfold exec execTry
  dsimp only
  rw [if_neg (by simp), hp _ _ _ rfl rfl]
  rfl

example : ∀ t, Rpc.memberOf (.obj [(ascii "method", .num (.uint 5)), (ascii "params", .arr [])]) (ascii "method") ≠ .str t := by
  have : Rpc.memberOf (.obj [(ascii "method", .num (.uint 5)), (ascii "params", .arr [])]) (ascii "method") = .num (.uint 5) := by
    decide +kernel
  rw [this]
  intro t h
  cases h

/-! ### C125: when notifications are sent -/

/-- A callback that only says whether it took the message. -/
def PlainCb (cb : List Msg → Act) (f : List Msg → Bool) : Prop := ∀ l, cb l = ⟨[], some (f l)⟩

/-- The messages but heartbeats. -/
def notBeat : Msg → Bool
  | .beat => false
  | _ => true

/-- Notifications are allowed after the messages `l`: by the flag if nothing was sent; after the response if it was taken and the flag
says so; after a notification if it was taken. `f` tells which messages were taken. -/
inductive Allowed (pre post : Bool) (f : List Msg → Bool) : List Msg → Prop
  | start (l : List Msg) (h : ∀ m ∈ l, notBeat m = false) (hp : pre = true) : Allowed pre post f l
  | response (a b : List Msg) (m : Msg) (hm : IsResponse m = true) (hb : ∀ x ∈ b, notBeat x = false) (hp : post = true)
      (ht : f (a ++ [m]) = true) : Allowed pre post f (a ++ m :: b)
  | notify (a b : List Msg) (n d : JV) (hb : ∀ x ∈ b, notBeat x = false) (ht : f (a ++ [.notify n d]) = true) :
      Allowed pre post f (a ++ .notify n d :: b)

/-- The state of a request: the flag of notifications is what the messages so far allow, and every notification among them was allowed. -/
structure InvN (pre post : Bool) (f : List Msg → Bool) (r : Req) : Prop where
  cbs : r.cbs = false
  aft : r.post = post
  flag : r.notif = true ↔ Allowed pre post f r.out
  past : ∀ (a b : List Msg) (n d : JV), r.out = a ++ .notify n d :: b → Allowed pre post f a

theorem snoc_split {α : Type} {l a b : List α} {x m : α} (h : l ++ [x] = a ++ m :: b) :
    (b = [] ∧ a = l ∧ m = x) ∨ ∃ b', b = b' ++ [x] ∧ l = a ++ m :: b' := by
  rcases List.eq_nil_or_concat b with rfl | ⟨b', y, rfl⟩
  · left
    obtain ⟨h1, h2⟩ := List.append_inj' h rfl
    cases h2
    exact ⟨rfl, h1.symm, rfl⟩
  · right
    have : l ++ [x] = (a ++ m :: b') ++ [y] := by rw [h]; simp
    obtain ⟨h1, h2⟩ := List.append_inj' this rfl
    cases h2
    exact ⟨b', by simp, h1⟩

theorem allowed_beat {pre post : Bool} {f : List Msg → Bool} {l : List Msg} :
    Allowed pre post f (l ++ [.beat]) ↔ Allowed pre post f l := by
  constructor
  · intro h
    generalize hx : l ++ [.beat] = x at h
    cases h with
    | start _ h hp => subst hx; exact .start _ (fun m hm => h m (List.mem_append_left _ hm)) hp
    | response a b m hm hb hp ht =>
      rcases snoc_split hx with ⟨_, _, rfl⟩ | ⟨b', rfl, rfl⟩
      · cases hm
      · exact .response a b' m hm (fun x hx => hb x (List.mem_append_left _ hx)) hp ht
    | notify a b n d hb ht =>
      rcases snoc_split hx with ⟨_, _, h⟩ | ⟨b', rfl, rfl⟩
      · cases h
      · exact .notify a b' n d (fun x hx => hb x (List.mem_append_left _ hx)) ht
  · intro h
    have hs : ∀ {b : List Msg}, (∀ x ∈ b, notBeat x = false) → ∀ x ∈ b ++ [.beat], notBeat x = false := by
      intro b hb x hx
      rcases List.mem_append.1 hx with hx | hx
      · exact hb x hx
      · rw [List.mem_singleton.1 hx]; rfl
    cases h with
    | start _ h hp => exact .start _ (hs h) hp
    | response a b m hm hb hp ht =>
      rw [List.append_assoc]
      exact .response a (b ++ [.beat]) m hm (hs hb) hp ht
    | notify a b n d hb ht =>
      rw [List.append_assoc]
      exact .notify a (b ++ [.beat]) n d (hs hb) ht

theorem allowed_response {pre post : Bool} {f : List Msg → Bool} {l : List Msg} {m : Msg} (hm : IsResponse m = true) :
    Allowed pre post f (l ++ [m]) ↔ (post = true ∧ f (l ++ [m]) = true) := by
  have hb : notBeat m = true := by cases m <;> first | rfl | cases hm
  constructor
  · intro h
    generalize hx : l ++ [m] = x at h
    cases h with
    | start _ h hp =>
      subst hx
      rw [h m (by simp)] at hb
      cases hb
    | response a b m' hm' hb' hp ht =>
      rcases snoc_split hx with ⟨rfl, rfl, rfl⟩ | ⟨b', rfl, rfl⟩
      · exact ⟨hp, ht⟩
      · rw [hb' m (by simp)] at hb; cases hb
    | notify a b n d hb' ht =>
      rcases snoc_split hx with ⟨_, _, rfl⟩ | ⟨b', rfl, rfl⟩
      · cases hm
      · rw [hb' m (by simp)] at hb; cases hb
  · intro ⟨h1, h2⟩
    exact .response l [] m hm (fun x hx => by cases hx) h1 h2

theorem allowed_notify {pre post : Bool} {f : List Msg → Bool} {l : List Msg} {n d : JV} :
    Allowed pre post f (l ++ [.notify n d]) ↔ f (l ++ [.notify n d]) = true := by
  constructor
  · intro h
    generalize hx : l ++ [.notify n d] = x at h
    cases h with
    | start _ h hp =>
      subst hx
      have := h (.notify n d) (by simp)
      cases this
    | response a b m' hm' hb' hp ht =>
      rcases snoc_split hx with ⟨_, _, rfl⟩ | ⟨b', rfl, rfl⟩
      · cases hm'
      · have := hb' (.notify n d) (by simp)
        cases this
    | notify a b n' d' hb' ht =>
      rcases snoc_split hx with ⟨rfl, rfl, h⟩ | ⟨b', rfl, rfl⟩
      · cases h; exact ht
      · have := hb' (.notify n d) (by simp)
        cases this
  · exact fun h => .notify l [] n d (fun x hx => by cases hx) h

theorem perform_plain {cb : List Msg → Act} {f : List Msg → Bool} (hq : PlainCb cb f) {pre post : Bool} (fuel : Nat) :
    ∀ (r : Req) (ops : List Op) (r' : Req) (t : Bool), perform cb fuel r ops = some (r', t) → InvN pre post f r →
      t = false ∧ InvN pre post f r' := by
  have nilp : ∀ (fuel : Nat) (r : Req), perform cb fuel r [] = some (r, false) := by
    intro fuel r
    cases fuel <;> rfl
  induction fuel with
  | zero =>
    intro r ops r' t h hi
    cases ops with
    | nil => cases h; exact ⟨rfl, hi⟩
    | cons _ _ => cases h
  | succ fuel ih =>
    intro r ops r' t h hi
    cases ops with
    | nil => cases h; exact ⟨rfl, hi⟩
    | cons op ops =>
      unfold perform at h
      have resp : ∀ (r1 : Req) (m : Msg), r1.cbs = false → r1.post = post → r1.out = r.out → IsResponse m = true →
          InvN pre post f (postSend { r1 with out := r1.out ++ [m] } (f (r1.out ++ [m]))) := by
        intro r1 m h1 h2 h3 hm
        refine ⟨h1, h2, ?_, ?_⟩
        · show (r1.post && f (r1.out ++ [m])) = true ↔ Allowed pre post f (r1.out ++ [m])
          rw [allowed_response hm, h2, Bool.and_eq_true]
        · intro a b n d hab
          rcases snoc_split (show r1.out ++ [m] = _ from hab) with ⟨_, _, rfl⟩ | ⟨b', _, e⟩
          · cases hm
          · exact hi.past a b' n d (by rw [← h3, e])
      have hp : prep r op = none ∨ ∃ r1 m fin, prep r op = some (r1, m, fin) ∧ r1.out = r.out ∧
          InvN pre post f (fin { r1 with out := r1.out ++ [m] } (f (r1.out ++ [m]))) := by
        cases op with
        | setResult v c =>
          cases hs : (answerable r.id && !r.sent) with
          | false => left; simp [prep, hi.cbs, hs]
          | true => right; exact ⟨r, _, postSend, by simp only [prep, hi.cbs, hs]; rfl, rfl, resp r _ hi.cbs hi.aft rfl rfl⟩
        | setError e =>
          cases hs : (answerable r.id && !r.sent) with
          | false => left; simp [prep, hi.cbs, hs]
          | true =>
            right
            exact ⟨{ r with sent := true, err := true }, _, postSend, by simp only [prep, hi.cbs, hs]; rfl, rfl,
              resp { r with sent := true, err := true } (.error (errorMsg r.v2 r.id e)) hi.cbs hi.aft rfl rfl⟩
        | noResult e =>
          cases hv : r.srv with
          | false => left; simp [prep, hv]
          | true =>
            cases hs : (answerable r.id && !r.sent) with
            | false => left; simp [prep, hi.cbs, hs]
            | true =>
              right
              exact ⟨{ r with sent := true, err := true }, _, postSend, by simp only [prep, hi.cbs, hs, hv]; rfl, rfl,
                resp { r with sent := true, err := true } (.error (errorMsg r.v2 r.id e)) hi.cbs hi.aft rfl rfl⟩
        | notify a d =>
          cases hn : r.notif with
          | false => left; simp [prep, hi.cbs, hn]
          | true =>
            right
            refine ⟨r, .notify a d, fun r b => { r with notif := b }, by simp [prep, hi.cbs, hn], rfl, hi.cbs, hi.aft, ?_, ?_⟩
            · exact allowed_notify.symm
            · intro x y n' d' hxy
              rcases snoc_split (show r.out ++ [.notify a d] = _ from hxy) with ⟨_, rfl, _⟩ | ⟨b', _, e⟩
              · exact hi.flag.1 hn
              · exact hi.past x b' n' d' e
        | beat =>
          right
          refine ⟨r, .beat, fun r _ => r, rfl, rfl, hi.cbs, hi.aft, ?_, ?_⟩
          · exact hi.flag.trans allowed_beat.symm
          · intro x y n' d' hxy
            rcases snoc_split (show r.out ++ [.beat] = _ from hxy) with ⟨_, _, h⟩ | ⟨b', _, e⟩
            · cases h
            · exact hi.past x b' n' d' e
      rcases hp with hp | ⟨r1, m, fin, hp, _, hf⟩
      · rw [hp] at h
        exact ih _ _ _ _ h hi
      · rw [hp] at h
        dsimp only at h
        rw [hq, nilp] at h
        simp only [Bool.false_or, Option.isNone_some, Bool.false_eq_true, if_false, Option.getD_some] at h
        exact ih _ _ _ _ h hf

/-- **C125** (partial: requests created with a function which only says whether it took the message). Whatever is done with a request,
notifications are enabled exactly when the messages so far allow them, and every notification that was sent was allowed when it was sent: before
the response only with the flag for it, after the response only with the flag for that and if the response was taken, and never after a
message that was not taken. Missing: callbacks that use the request again or throw (see the violation). -/
theorem C125_allowed_partial (cb : List Msg → Act) (f : List Msg → Bool) (hq : PlainCb cb f) (id : JV) (v2 post pre srv : Bool) (fuel : Nat)
    (ops : List Op) (r : Req) (t : Bool) (h : perform cb fuel (fresh id v2 post pre srv) ops = some (r, t)) :
    (r.notif = true ↔ Allowed pre post f r.out) ∧
      ∀ (a b : List Msg) (n d : JV), r.out = a ++ .notify n d :: b → Allowed pre post f a := by
  have h0 : InvN pre post f (fresh id v2 post pre srv) := by
    refine ⟨rfl, rfl, ⟨fun h => .start _ (fun m hm => by cases hm) h, fun h => ?_⟩, fun a b n d hab => ?_⟩
    · have hx : ∀ l, Allowed pre post f l → l = [] → pre = true := by
        intro l hl e
        cases hl with
        | start _ _ hp => exact hp
        | response => simp at e
        | notify => simp at e
      exact hx _ h rfl
    · have : ([] : List Msg) = a ++ .notify n d :: b := hab
      simp at this
  obtain ⟨_, hi⟩ := perform_plain hq _ _ _ _ _ h h0
  exact ⟨hi.flag, hi.past⟩

/-- **C125, no flags**: then nothing is notified. -/
theorem C125_none (cb : List Msg → Act) (f : List Msg → Bool) (hq : PlainCb cb f) (id : JV) (v2 srv : Bool) (fuel : Nat)
    (ops : List Op) (r : Req) (t : Bool) (h : perform cb fuel (fresh id v2 false false srv) ops = some (r, t)) (n d : JV) :
    .notify n d ∉ r.out := by
  have key : ∀ (k : Nat) (l : List Msg), l.length ≤ k → (∀ (a b : List Msg) (n d : JV), l = a ++ .notify n d :: b → Allowed false false f a) →
      ∀ n d, .notify n d ∉ l := by
    intro k
    induction k with
    | zero =>
      intro l hk _ n d hm
      rw [List.length_eq_zero_iff.1 (Nat.le_zero.1 hk)] at hm
      cases hm
    | succ k ih =>
      intro l hk hl n d hm
      obtain ⟨a, b, e⟩ := List.append_of_mem hm
      have ha := hl a b n d e
      have hno : ∀ n d, .notify n d ∉ a := by
        refine ih a ?_ (fun a' b' n' d' e' => hl a' (b' ++ .notify n d :: b) n' d' (by rw [e, e']; simp))
        rw [e, List.length_append, List.length_cons] at hk
        omega
      generalize hx : a = x at ha
      cases ha with
      | start _ _ hp => cases hp
      | response a b m hm hb hp ht => cases hp
      | notify a b n d hb ht => subst hx; exact hno n d (by simp)
  exact key _ _ (Nat.le_refl _) (C125_allowed_partial cb f hq id v2 false false srv fuel ops r t h).2 n d

/-- A request with both flags: a notification, the response, notifications until one is refused. -/
example : PlainCb (fun l => ⟨[], some (l.length < 3)⟩) (fun l => l.length < 3) ∧
    (perform (fun l => ⟨[], some (l.length < 3)⟩) 9 (fresh (.str [1]) true true true true)
      [.notify .null .null, .setResult .null .undef, .notify .null .null, .notify .null .null]).map (fun x => (x.1.out.length, x.1.notif)) =
      some (3, false) := ⟨fun _ => rfl, by decide +kernel⟩

/-- **C125 violated.** A callback that, given a notification, answers the request and then takes the notification: notifications are enabled
after the response although the flag for that is missing. -/
theorem C125_violation_reenter : ∃ (cb : List Msg → Act) (r : Req),
    perform cb 9 (fresh (.str [1]) true false true true) [.notify .null .null, .notify .null .null] = some (r, false) ∧
      r.out.map (fun m => (IsResponse m, notBeat m)) = [(false, true), (true, true), (false, true)] :=
  ⟨fun l => if l.length = 1 then ⟨[.setResult .null .undef], some true⟩ else ⟨[], some true⟩, _, rfl, by decide +kernel⟩

/-- **C125 violated.** The documentation of `sendNotify` says that there is no way to enable notifications again once they are disabled, so
the sender may forget the observer. A request with the flag for notifications after the response refuses them before the response and sends
them after it. -/
theorem C125_violation_enabled : ∃ r1 r2 : Req,
    perform takes 9 (fresh (.str [1]) true true false true) [.notify .null .null] = some (r1, false) ∧ r1.notif = false ∧ r1.out = [] ∧
      perform takes 9 r1 [.setResult .null .undef, .notify .null .null] = some (r2, false) ∧ r2.out.length = 2 ∧
      .notify .null .null ∈ r2.out :=
  ⟨_, _, rfl, rfl, rfl, rfl, rfl, by decide +kernel⟩

end Imt.Props
