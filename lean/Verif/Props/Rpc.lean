import Verif.Model.Rpc
import Verif.Lemmas.ObjB
import Verif.Lemmas.ObjCore
import Verif.Props.Merge
/-!
# Properties of RPC requests, server and context updates (C58, C59, C61, C86)
-/
namespace Imt.Props
open Imt Imt.Obj Imt.ObjB Imt.Rpc Imt.Spec

/-! ### Messages -/

theorem build_spec (L : Members JV) : StrictSorted (ObjB.commit defd (record defd new L)).1 ∧
    ∀ k, lookup (ObjB.commit defd (record defd new L)).1 k = (lastVal L k).filter defd := by
  obtain ⟨_, _, _, _, _, h6, h7⟩ := commit_spec defd (obj_record_inv L)
  refine ⟨h6, ?_⟩
  intro k
  obtain ⟨_, hr, hb, hd⟩ := foldl_set_spec defd L (s := (new : OB JV)) inv_new
  have e1 : (record defd new L).base = [] := hb
  have e2 : (record defd new L).baseDiff = false := hd
  have e3 : recorded (record defd new L) k = (lastVal L k).or (recorded (new : OB JV) k) := hr k
  have e4 : recorded (new : OB JV) k = none := by simp [new, recorded, lastVal, lookup]
  rw [h7, e1, e2, e3, e4, Option.or_none]
  cases lastVal L k with
  | none => rfl
  | some v => cases h : defd v <;> simp [comb, h, lookup, Option.filter]

theorem member_build (L : Members JV) (k : Bytes) : Rpc.memberOf (build L) k = ((lastVal L k).filter defd).getD .undef := by
  obtain ⟨h1, h2⟩ := build_spec L
  unfold build Rpc.memberOf
  dsimp only
  rw [Obj.member_eq_lookup h1, h2]

theorem getD_filter (v : JV) : ((some v).filter defd).getD .undef = v := by
  cases v <;> rfl

theorem answerable_def {v : JV} (h : answerable v = true) : defd v = true := by
  cases v <;> first | rfl | cases h

theorem id_resultMsg (v2 : Bool) (id r ctx : JV) : Rpc.memberOf (resultMsg v2 id r ctx) (ascii "id") = id := by
  unfold resultMsg
  split <;> rw [member_build] <;> exact getD_filter id

theorem id_errorMsg (v2 : Bool) (id e : JV) : Rpc.memberOf (errorMsg v2 id e) (ascii "id") = id := by
  unfold errorMsg
  split <;> rw [member_build] <;> exact getD_filter id

/-! ### At most one response -/

/-- A message which answers the request. -/
def IsResponse : Msg → Bool
  | .result _ => true
  | .error _ => true
  | _ => false

/-- Number of responses handed out. -/
def responses (l : List Msg) : Nat := (l.filter IsResponse).length

/-- Object of a response. -/
def respObj : Msg → Option JV
  | .result m => some m
  | .error m => some m
  | _ => none

/-- A callback that on results neither uses the request again nor throws. -/
def QuietOnResult (cb : List Msg → Act) : Prop := ∀ h m, (cb (h ++ [.result m])).ops = [] ∧ (cb (h ++ [.result m])).ret ≠ none

theorem responses_push (l : List Msg) (m : Msg) : responses (l ++ [m]) = responses l + (IsResponse m).toNat := by
  unfold responses
  rw [List.filter_append, List.length_append]
  cases h : IsResponse m <;> simp [h]

/-- Invariant of a request between operations. -/
structure InvR (r : Req) : Prop where
  cbs : r.cbs = false
  count : responses r.out = r.sent.toNat
  ids : ∀ m ∈ r.out, ∀ o, respObj m = some o → Rpc.memberOf o (ascii "id") = r.id
  silent : answerable r.id = false → r.sent = false

/-- What stays the same. -/
structure Keeps (a b : Req) : Prop where
  id : b.id = a.id
  srv : b.srv = a.srv
  sent : a.sent = true → b.sent = true

theorem Keeps.trans {a b c : Req} (h : Keeps a b) (h' : Keeps b c) : Keeps a c :=
  ⟨h'.id.trans h.id, h'.srv.trans h.srv, fun x => h'.sent (h.sent x)⟩

theorem push_ids {l : List Msg} {m : Msg} {i : JV} (h : ∀ x ∈ l, ∀ o, respObj x = some o → Rpc.memberOf o (ascii "id") = i)
    (hm : ∀ o, respObj m = some o → Rpc.memberOf o (ascii "id") = i) :
    ∀ x ∈ l ++ [m], ∀ o, respObj x = some o → Rpc.memberOf o (ascii "id") = i := by
  intro x hx
  rcases List.mem_append.1 hx with hx | hx
  · exact h x hx
  · rw [List.mem_singleton.1 hx]; exact hm

theorem perform_inv (cb : List Msg → Act) (hq : QuietOnResult cb) : ∀ (fuel : Nat) (r : Req) (ops : List Op) (r' : Req) (t : Bool),
    perform cb fuel r ops = some (r', t) → InvR r → InvR r' ∧ Keeps r r' := by
  intro fuel
  induction fuel with
  | zero =>
    intro r ops r' t h hi
    cases ops with
    | nil => cases h; exact ⟨hi, rfl, rfl, id⟩
    | cons o l => cases h
  | succ n ih =>
    intro r ops r' t h hi
    cases ops with
    | nil => cases h; exact ⟨hi, rfl, rfl, id⟩
    | cons op ops =>
      -- what is left after the callback, for a message which leaves the count right
      have gen : ∀ (r1 : Req) (m : Msg) (fin : Req → Bool → Req), Keeps r r1 → InvR { r1 with out := r1.out ++ [m] } →
          (∀ x b, InvR x → Keeps r1 x → InvR (fin x b) ∧ Keeps x (fin x b)) → prep r op = some (r1, m, fin) → InvR r' ∧ Keeps r r' := by
        intro r1 m fin hk h1 hf hp
        simp only [perform, hp] at h
        have k1 : Keeps r { r1 with out := r1.out ++ [m] } := ⟨hk.id, hk.srv, hk.sent⟩
        cases hx : perform cb n { r1 with out := r1.out ++ [m] } (cb (r1.out ++ [m])).ops with
        | none => rw [hx] at h; cases h
        | some y =>
          obtain ⟨x, thr⟩ := y
          rw [hx] at h
          dsimp only at h
          obtain ⟨i2, k2⟩ := ih _ _ _ _ hx h1
          split at h
          · split at h
            · cases h
            · split at h
              · obtain ⟨i3, k3⟩ := ih _ _ _ _ h i2
                exact ⟨i3, (k1.trans k2).trans k3⟩
              · cases h; exact ⟨i2, k1.trans k2⟩
          · obtain ⟨i3, k3⟩ := hf x ((cb (r1.out ++ [m])).ret.getD false) i2 ⟨k2.id, k2.srv, k2.sent⟩
            obtain ⟨i4, k4⟩ := ih _ _ _ _ h i3
            exact ⟨i4, ((k1.trans k2).trans k3).trans k4⟩
      have errCase : ∀ e, prep r op = (if answerable r.id && !r.sent then
            some ({ r with sent := true, err := true }, Msg.error (errorMsg r.v2 r.id e), postSend) else none) →
          InvR r' ∧ Keeps r r' := by
        intro e hp
        split at hp
        · rename_i hc
          simp only [Bool.and_eq_true, Bool.not_eq_true'] at hc
          refine gen { r with sent := true, err := true } _ _ ⟨rfl, rfl, fun _ => rfl⟩ ⟨hi.cbs, ?_, ?_, ?_⟩ ?_ hp
          · rw [responses_push, hi.count, hc.2]; rfl
          · refine push_ids hi.ids ?_
            intro o ho
            cases ho
            exact id_errorMsg _ _ _
          · intro hn; rw [hc.1] at hn; cases hn
          · intro x b hx hk
            have hs : x.sent = true := hk.sent rfl
            exact ⟨⟨hx.cbs, by rw [show (postSend x b).out = x.out from rfl, hx.count, hs]; rfl, hx.ids,
              fun hn => absurd (hx.silent hn) (by rw [hs]; decide)⟩, rfl, rfl, fun _ => rfl⟩
        · simp only [perform, hp] at h
          exact ih _ _ _ _ h hi
      cases op with
      | setResult v ctx =>
        have hp : prep r (.setResult v ctx) = (if answerable r.id && !r.sent then
            some (r, Msg.result (resultMsg r.v2 r.id v (ctxch ctx)), postSend) else none) := by
          simp [prep, hi.cbs]
        split at hp
        · rename_i hc
          simp only [Bool.and_eq_true, Bool.not_eq_true'] at hc
          simp only [perform, hp] at h
          obtain ⟨q1, q2⟩ := hq r.out (resultMsg r.v2 r.id v (ctxch ctx))
          rw [q1] at h
          have e : ∀ x, perform cb n x [] = some (x, false) := by intro x; cases n <;> rfl
          rw [e] at h
          have q3 : (cb (r.out ++ [.result (resultMsg r.v2 r.id v (ctxch ctx))])).ret.isNone = false := by
            cases hq' : (cb (r.out ++ [.result (resultMsg r.v2 r.id v (ctxch ctx))])).ret with
            | none => exact absurd hq' q2
            | some b => rfl
          simp only [q3, Bool.or_false, Bool.false_eq_true, if_false] at h
          obtain ⟨i, k⟩ := ih _ _ _ _ h ⟨hi.cbs, by
              show responses (r.out ++ [_]) = 1
              rw [responses_push, hi.count, hc.2]; rfl, by
              refine push_ids hi.ids ?_
              intro o ho
              cases ho
              exact id_resultMsg _ _ _ _, fun hn => by
              have : answerable r.id = false := hn
              rw [hc.1] at this; cases this⟩
          exact ⟨i, k.id, k.srv, fun _ => k.sent rfl⟩
        · simp only [perform, hp] at h
          exact ih _ _ _ _ h hi
      | setError e => exact errCase e (by simp [prep, hi.cbs])
      | noResult e =>
        cases hs : r.srv with
        | true => exact errCase e (by simp [prep, hi.cbs, hs])
        | false =>
          have hp : prep r (.noResult e) = none := by simp [prep, hs]
          simp only [perform, hp] at h
          exact ih _ _ _ _ h hi
      | notify nm d =>
        cases hs : r.notif with
        | true =>
          refine gen r (.notify nm d) (fun r b => { r with notif := b }) ⟨rfl, rfl, id⟩ ⟨hi.cbs, ?_, ?_, hi.silent⟩ ?_
            (by simp [prep, hi.cbs, hs])
          · rw [responses_push]; exact hi.count
          · exact push_ids hi.ids (fun o ho => by cases ho)
          · intro x b hx hk
            exact ⟨⟨hx.cbs, hx.count, hx.ids, hx.silent⟩, rfl, rfl, id⟩
        | false =>
          have hp : prep r (.notify nm d) = none := by simp [prep, hi.cbs, hs]
          simp only [perform, hp] at h
          exact ih _ _ _ _ h hi
      | beat =>
        refine gen r .beat (fun r _ => r) ⟨rfl, rfl, id⟩ ⟨hi.cbs, ?_, ?_, hi.silent⟩ ?_ rfl
        · rw [responses_push]; exact hi.count
        · exact push_ids hi.ids (fun o ho => by cases ho)
        · intro x b hx hk
          exact ⟨hx, rfl, rfl, id⟩

/-- A request as created with a function (any id, version, flags). -/
def fresh (id : JV) (v2 post notif srv : Bool) : Req := { cbs := false, id := id, v2 := v2, post := post, notif := notif, srv := srv }

theorem fresh_inv (id : JV) (v2 post notif srv : Bool) : InvR (fresh id v2 post notif srv) :=
  ⟨rfl, rfl, fun _ h => absurd h List.not_mem_nil, fun _ => rfl⟩

theorem bool_toNat_le (b : Bool) : b.toNat ≤ 1 := by cases b <;> decide

theorem destroy_inv (cb : List Msg → Act) (hq : QuietOnResult cb) {fuel : Nat} {err : JV} {r r' : Req}
    (h : destroy cb fuel err r = some r') (hi : InvR r) : InvR r' ∧ Keeps r r' := by
  unfold destroy at h
  split at h
  · cases h; exact ⟨hi, rfl, rfl, id⟩
  · cases hx : perform cb fuel r [.noResult err] with
    | none => rw [hx] at h; cases h
    | some y => rw [hx] at h; cases h; exact perform_inv cb hq _ _ _ _ _ hx hi

/-- **C58** (partial: requests created with a function which on a result neither uses the request again nor throws). Whatever is done with
a request – any sequence of results, errors, notifications and heartbeats, callbacks using the request again or throwing on errors and
notifications, then its destruction – at most one response is handed out, and it carries the id of the request.
Missing: callbacks that answer again or throw while they are given a result, and requests created with `Callbacks`, where it fails
(see the violations). -/
theorem C58_once_partial (cb : List Msg → Act) (hq : QuietOnResult cb) (id : JV) (v2 post notif srv : Bool) (ops : List Op)
    (fuel fuel' : Nat) (err : JV) (r r' : Req) (t : Bool)
    (h : perform cb fuel (fresh id v2 post notif srv) ops = some (r, t)) (hd : destroy cb fuel' err r = some r') :
    responses r.out ≤ 1 ∧ responses r'.out ≤ 1 ∧
      ∀ m ∈ r'.out, ∀ o, respObj m = some o → Rpc.memberOf o (ascii "id") = id := by
  obtain ⟨i1, k1⟩ := perform_inv cb hq _ _ _ _ _ h (fresh_inv id v2 post notif srv)
  obtain ⟨i2, k2⟩ := destroy_inv cb hq hd i1
  refine ⟨by rw [i1.count]; exact bool_toNat_le _, by rw [i2.count]; exact bool_toNat_le _, ?_⟩
  intro m hm o ho
  have := i2.ids m hm o ho
  rwa [k2.id, k1.id] at this

/-- A callback which answers an error with a result and repeats itself on notifications meets the hypotheses. -/
def busy : List Msg → Act := fun h =>
  match h.getLast? with
  | some (.error _) => ⟨[.setResult .null .undef, .setError .null], none⟩
  | some (.result _) => ⟨[], some true⟩
  | _ => ⟨[.setError (.str (ascii "e"))], some true⟩

example : QuietOnResult busy := fun h m => by simp [busy]
example : (perform busy 20 (fresh (.str (ascii "1")) true true true true) [.notify .null .null, .setResult .null .undef]).map (fun x => responses x.1.out)
    = some 1 := by decide +kernel

/-- **C58, violation.** A callback which, given the result, sets the result once more, is given two responses: the flag is set only
after the callback returns. -/
theorem C58_violation_reenter : ∃ (cb : List Msg → Act) (r : Req),
    perform cb 10 (fresh (.str (ascii "1")) true false false true) [.setResult (.str (ascii "a")) .undef] = some (r, false) ∧
      responses r.out = 2 :=
  ⟨fun h => if h.length = 1 then ⟨[.setError .null], some true⟩ else ⟨[], some true⟩, _, rfl, by decide +kernel⟩

/-- **C58, violation.** A callback which throws when given the result: the server then sends an error as the second response. -/
theorem C58_violation_throw : ∃ (cb : List Msg → Act) (r : Req),
    exec cb 10 ⟨.null, .null, .str (ascii "Internal error")⟩ true (some ⟨[.setResult (.str (ascii "a")) .undef], some true⟩) none none
      (fresh (.str (ascii "1")) true false false false) = some r ∧ responses r.out = 2 :=
  ⟨fun h => if h.length = 1 then ⟨[], none⟩ else ⟨[], some true⟩, _, rfl, by decide +kernel⟩

/-- **C58, violation.** A request created with `Callbacks` has no guard: every `setResult` is handed out, here two of them. -/
theorem C58_violation_callbacks (cb : List Msg → Act) (hcb : ∀ h, cb h = ⟨[], some true⟩) (id a b : JV) : ∃ r : Req,
    perform cb 10 { fresh id true false false true with cbs := true } [.setResult a .undef, .setResult b .undef] = some (r, false) ∧
      responses r.out = 2 := by
  refine ⟨_, by simp [perform, prep, fresh, hcb, postSend]; rfl, ?_⟩
  rfl

/-! ### Server -/

/-- A callback which does not use the request again nor throws when it is given a response. -/
def Quiet (cb : List Msg → Act) : Prop := ∀ h m, IsResponse m = true → (cb (h ++ [m])).ops = [] ∧ (cb (h ++ [m])).ret ≠ none

theorem Quiet.onResult {cb : List Msg → Act} (h : Quiet cb) : QuietOnResult cb := fun l m => h l (.result m) rfl

theorem InvR.withSrv {r : Req} (h : InvR r) : InvR { r with srv := true } := ⟨h.cbs, h.count, h.ids, h.silent⟩

theorem execTry_inv (cb : List Msg → Act) (hq : QuietOnResult cb) {fuel : Nat} {e : Errs} {valid : Bool} {m proxy : Option Fn} {r r' : Req}
    {t : Bool} (h : execTry cb fuel e valid m proxy r = some (r', t)) (hi : InvR r) : InvR r' ∧ Keeps { r with srv := true } r' := by
  unfold execTry at h
  dsimp only at h
  split at h
  · split at h
    · rename_i f
      cases hx : perform cb fuel { r with srv := true } f.ops with
      | none => rw [hx] at h; cases h
      | some y => rw [hx] at h; cases h; exact perform_inv cb hq _ _ _ _ _ hx hi.withSrv
    · split at h
      · exact perform_inv cb hq _ _ _ _ _ h hi.withSrv
      · rename_i p
        cases hx : perform cb fuel { r with srv := true } p.ops with
        | none => rw [hx] at h; cases h
        | some y =>
          rw [hx] at h
          dsimp only at h
          obtain ⟨i, k⟩ := perform_inv cb hq _ _ _ _ _ hx hi.withSrv
          split at h
          · cases h; exact ⟨i, k⟩
          · split at h
            · cases h; exact ⟨i, k⟩
            · obtain ⟨i', k'⟩ := perform_inv cb hq _ _ _ _ _ h i
              exact ⟨i', k.trans k'⟩
  · exact perform_inv cb hq _ _ _ _ _ h hi.withSrv

theorem execCatch_inv (cb : List Msg → Act) (hq : QuietOnResult cb) {fuel : Nat} {e : Errs} {handler : Option Fn} {r r' : Req}
    (h : execCatch cb fuel e handler r = some r') (hi : InvR r) : InvR r' ∧ Keeps r r' := by
  have again : ∀ {x y : Req}, InvR x → (match perform cb fuel x [.setError e.internal] with
      | some (r, false) => some r
      | _ => none) = some y → InvR y ∧ Keeps x y := by
    intro x y hx hy
    split at hy
    · rename_i hz
      cases hy
      exact perform_inv cb hq _ _ _ _ _ hz hx
    · cases hy
  have first : ∀ {x y : Req}, InvR x → (match perform cb fuel x [.setError e.internal] with
      | some (r, false) => some r
      | some (r, true) => (match perform cb fuel r [.setError e.internal] with
        | some (r, false) => some r
        | _ => none)
      | none => none) = some y → InvR y ∧ Keeps x y := by
    intro x y hx hy
    split at hy
    · rename_i hz
      cases hy
      exact perform_inv cb hq _ _ _ _ _ hz hx
    · rename_i hz
      obtain ⟨i, k⟩ := perform_inv cb hq _ _ _ _ _ hz hx
      obtain ⟨i', k'⟩ := again i hy
      exact ⟨i', k.trans k'⟩
    · cases hy
  unfold execCatch at h
  dsimp only at h
  split at h
  · exact first hi h
  · rename_i hd
    cases hx : perform cb fuel r hd.ops with
    | none => rw [hx] at h; cases h
    | some y =>
      rw [hx] at h
      dsimp only at h
      obtain ⟨i, k⟩ := perform_inv cb hq _ _ _ _ _ hx hi
      split at h
      · obtain ⟨i', k'⟩ := again i h
        exact ⟨i', k.trans k'⟩
      · split at h
        · cases h; exact ⟨i, k⟩
        · obtain ⟨i', k'⟩ := first i h
          exact ⟨i', k.trans k'⟩

theorem exec_inv (cb : List Msg → Act) (hq : QuietOnResult cb) {fuel : Nat} {e : Errs} {valid : Bool} {m proxy handler : Option Fn} {r r' : Req}
    (h : exec cb fuel e valid m proxy handler r = some r') (hi : InvR r) : InvR r' ∧ Keeps { r with srv := true } r' := by
  unfold exec at h
  split at h
  · cases h
  · rename_i hx; cases h; exact execTry_inv cb hq hx hi
  · rename_i hx
    obtain ⟨i, k⟩ := execTry_inv cb hq hx hi
    obtain ⟨i', k'⟩ := execCatch_inv cb hq h i
    exact ⟨i', k.trans k'⟩

/-- After destruction an answerable request known to the server has been answered. -/
theorem destroy_sent (cb : List Msg → Act) (hq : QuietOnResult cb) {fuel : Nat} {err : JV} {r r' : Req}
    (h : destroy cb fuel err r = some r') (hi : InvR r) (hs : r.srv = true) (ha : answerable r.id = true) : r'.sent = true := by
  unfold destroy at h
  split at h
  · rename_i hr; cases h; exact hr
  · rename_i hr
    simp only [Bool.not_eq_true] at hr
    cases hx : perform cb fuel r [.noResult err] with
    | none => rw [hx] at h; cases h
    | some y =>
      rw [hx] at h
      cases h
      cases fuel with
      | zero => cases hx
      | succ n =>
        have hp : prep r (.noResult err) = some ({ r with sent := true, err := true }, .error (errorMsg r.v2 r.id err), postSend) := by
          simp [prep, hs, hi.cbs, ha, hr]
        simp only [perform, hp] at hx
        have h1 : InvR { { r with sent := true, err := true } with out := r.out ++ [.error (errorMsg r.v2 r.id err)] } := by
          refine ⟨hi.cbs, ?_, push_ids hi.ids ?_, ?_⟩
          · show responses (r.out ++ [_]) = 1
            rw [responses_push, hi.count, hr]; rfl
          · intro o ho; cases ho; exact id_errorMsg _ _ _
          · intro hn
            have : answerable r.id = false := hn
            rw [ha] at this; cases this
        split at hx
        · cases hx
        · rename_i x thr hy
          obtain ⟨_, k⟩ := perform_inv cb hq _ _ _ _ _ hy h1
          have hxs : x.sent = true := k.sent rfl
          split at hx
          · split at hx
            · cases hx
            · split at hx
              · cases hx; exact hxs
              · cases hx; exact hxs
          · cases hx; rfl

/-- The error sent for a method without a result, also from the destructor, lets no exception out, whatever the callback does; `setError` does let the
exception of its callback out. -/
theorem C59_contained (cb : List Msg → Act) (fuel : Nat) (r r' : Req) (e : JV) (t : Bool)
    (h : perform cb fuel r [.noResult e] = some (r', t)) : t = false := by
  cases fuel with
  | zero => cases h
  | succ n =>
    have he : ∀ x, perform cb n x [] = some (x, false) := by intro x; cases n <;> rfl
    cases hp : prep r (.noResult e) with
    | none => simp only [perform, hp, he] at h; cases h; rfl
    | some y =>
      obtain ⟨r1, m, fin⟩ := y
      simp only [perform, hp, he] at h
      split at h
      · cases h
      · split at h
        · split at h
          · cases h
          · simp only [catches, if_true] at h
            cases h; rfl
        · cases h; rfl

/-- A callback that throws. -/
def throwing : List Msg → Act := fun _ => ⟨[], none⟩

example : (∃ r, perform throwing 9 (fresh (.str (ascii "1")) true false false true) [.noResult .null] = some (r, false)) ∧
    ∃ r, perform throwing 9 (fresh (.str (ascii "1")) true false false true) [.setError .null] = some (r, true) := ⟨⟨_, rfl⟩, _, rfl⟩

/-- **C59** (partial: requests created with a function which, given a result, neither uses the request again nor throws; runs that end –
`exec` is `noexcept`). Whatever the method, proxy and exception handler do (any operations, exceptions), whether the request is valid
and the method known: once executed and destroyed, a request with an id got exactly one response, a request without id or with null got none.
Missing: other callbacks (see the violations of C58) and requests created with `Callbacks` (see the violation). -/
theorem C59_answered_partial (cb : List Msg → Act) (hq : QuietOnResult cb) (id : JV) (v2 post notif srv : Bool) (e : Errs) (err : JV)
    (valid : Bool) (m proxy handler : Option Fn) (later : List Op) (f1 f2 f3 : Nat) (r r1 r2 : Req) (t : Bool)
    (h : exec cb f1 e valid m proxy handler (fresh id v2 post notif srv) = some r)
    (hl : perform cb f2 r later = some (r1, t)) (hd : destroy cb f3 err r1 = some r2) :
    responses r2.out = if answerable id then 1 else 0 := by
  obtain ⟨i1, k1⟩ := exec_inv cb hq h (fresh_inv id v2 post notif srv)
  obtain ⟨i2, k2⟩ := perform_inv cb hq _ _ _ _ _ hl i1
  obtain ⟨i3, k3⟩ := destroy_inv cb hq hd i2
  have hid : r1.id = id := by rw [k2.id, k1.id]; rfl
  rw [i3.count]
  cases ha : answerable id with
  | true =>
    rw [destroy_sent cb hq hd i2 (by rw [k2.srv, k1.srv]) (by rw [hid]; exact ha)]
    rfl
  | false =>
    rw [i3.silent (by rw [k3.id, hid]; exact ha)]
    rfl

theorem perform_quiet_ends (cb : List Msg → Act) (hq : Quiet cb) (n : Nat) (r : Req) (hi : InvR r) (e : JV) :
    ∃ r', perform cb (n + 2) r [.setError e] = some (r', false) := by
  cases hp : prep r (.setError e) with
  | none => exact ⟨r, by simp only [perform, hp]⟩
  | some y =>
    obtain ⟨r1, m, fin⟩ := y
    have hm : IsResponse m = true := by
      simp only [prep, hi.cbs] at hp
      simp only [Bool.false_eq_true, if_false] at hp
      split at hp
      · cases hp; rfl
      · cases hp
    obtain ⟨q1, q2⟩ := hq r1.out m hm
    have q3 : (cb (r1.out ++ [m])).ret.isNone = false := by
      cases hq' : (cb (r1.out ++ [m])).ret with
      | none => exact absurd hq' q2
      | some b => rfl
    refine ⟨fin { r1 with out := r1.out ++ [m] } ((cb (r1.out ++ [m])).ret.getD false), ?_⟩
    rw [perform, hp]
    dsimp only
    rw [q1]
    simp only [perform, q3, Bool.or_false, Bool.false_eq_true, if_false]

/-- **C59.** For callbacks which are quiet on all responses the server never terminates the program on its own: if the operations of the
method end (with an exception or not), `exec` ends, also without exception handler. -/
theorem C59_ends (cb : List Msg → Act) (hq : Quiet cb) (id : JV) (v2 post notif srv : Bool) (e : Errs) (f : Fn) (n : Nat)
    (he : (perform cb (n + 2) { fresh id v2 post notif srv with srv := true } f.ops).isSome) :
    ∃ r, exec cb (n + 2) e true (some f) none none (fresh id v2 post notif srv) = some r := by
  unfold exec execTry
  simp only [if_true]
  cases hx : perform cb (n + 2) { fresh id v2 post notif srv with srv := true } f.ops with
  | none => rw [hx] at he; cases he
  | some y =>
    obtain ⟨r, t⟩ := y
    obtain ⟨i, _⟩ := perform_inv cb hq.onResult _ _ _ _ _ hx (fresh_inv id v2 post notif srv).withSrv
    simp only [Option.map_some]
    cases ht : (t || f.ret.isNone) with
    | false => exact ⟨r, rfl⟩
    | true =>
      obtain ⟨r', hr'⟩ := perform_quiet_ends cb hq n r i e.internal
      exact ⟨r', by simp only [execCatch, hr']⟩

/-- Concrete case: a method which throws without answering; the caller gets the internal error. -/
example : ∃ r, exec (fun _ => ⟨[], some true⟩) 10 ⟨.null, .null, .str (ascii "Internal error")⟩ true (some ⟨[], none⟩) none none
    (fresh (.str (ascii "7")) true false false false) = some r ∧ responses r.out = 1 := ⟨_, rfl, by decide +kernel⟩
/-- Concrete case: a notification is not answered even if the method sets a result. -/
example : ∃ r, exec (fun _ => ⟨[], some true⟩) 10 ⟨.null, .null, .null⟩ true (some ⟨[.setResult .null .undef], some true⟩) none none
    (fresh .null true false false false) = some r ∧ responses r.out = 0 := ⟨_, rfl, by decide +kernel⟩

/-- **C59, violation.** A notification (no id) executed with `Callbacks` gets a response. -/
theorem C59_violation_callbacks : ∃ r,
    exec (fun _ => ⟨[], some true⟩) 10 ⟨.null, .null, .null⟩ true (some ⟨[.setResult .null .undef], some true⟩) none none
      { fresh .undef true false false false with cbs := true } = some r ∧ responses r.out = 1 := ⟨_, rfl, by decide +kernel⟩

/-! ### What the client makes of a response -/

/-- **C86** (partial: defined results; errors other than null). The client takes the response of a result as success with that result
and the response of an error as that error, under the id of the request, in both versions of the protocol.
Missing: undefined results, null and undefined errors, where it fails (see the violations). -/
theorem C86_understood_partial (v2 : Bool) (id : JV) (ha : answerable id = true) (v ctx : JV) (hv : defd v = true) :
    classify (resultMsg v2 id v ctx) = .response id ⟨v, false⟩ ∧
      (isNull v = false → classify (errorMsg v2 id v) = .response id ⟨v, true⟩) := by
  constructor
  · unfold classify
    simp only [id_resultMsg, ha, if_true]
    have h1 : Rpc.memberOf (resultMsg v2 id v ctx) (ascii "result") = v := by
      unfold resultMsg
      split <;> rw [member_build] <;> exact getD_filter v
    have h2 : Rpc.memberOf (resultMsg v2 id v ctx) (ascii "error") = if v2 then .undef else .null := by
      unfold resultMsg
      split <;> rw [member_build] <;> rfl
    rw [h1, h2]
    have hn : defd .null = true := rfl
    have hu : defd .undef = false := rfl
    cases v2 <;> simp [isDef, hv, isNull, hn, hu]
  · intro hn
    unfold classify
    simp only [id_errorMsg, ha, if_true]
    have h1 : Rpc.memberOf (errorMsg v2 id v) (ascii "error") = v := by
      unfold errorMsg
      split <;> rw [member_build] <;> exact getD_filter v
    have h2 : Rpc.memberOf (errorMsg v2 id v) (ascii "result") = if v2 then .undef else .null := by
      unfold errorMsg
      split <;> rw [member_build] <;> rfl
    rw [h1, h2]
    have hn' : defd .null = true := rfl
    have hu : defd .undef = false := rfl
    cases v2 <;> simp [isDef, hv, hn, hn', hu]

example : answerable (.str (ascii "1")) = true ∧ defd (.str (ascii "x")) = true ∧ isNull (.str (ascii "x")) = false := by decide

/-- **C86, violation.** The undefined result in version 2: the response is taken for a request and the call stays pending; in version 1
it is taken for an error. -/
theorem C86_violation_undefined (id : JV) (ha : answerable id = true) (ctx : JV) :
    classify (resultMsg true id .undef ctx) = .request ∧ classify (resultMsg false id .undef ctx) = .response id ⟨.null, true⟩ := by
  have h1 : ∀ v2, Rpc.memberOf (resultMsg v2 id .undef ctx) (ascii "result") = .undef := by
    intro v2; unfold resultMsg; split <;> rw [member_build] <;> rfl
  have h2 : ∀ v2, Rpc.memberOf (resultMsg v2 id .undef ctx) (ascii "error") = if v2 then .undef else .null := by
    intro v2; unfold resultMsg; split <;> rw [member_build] <;> rfl
  unfold classify
  simp only [id_resultMsg, ha, if_true, h1, h2]
  exact ⟨rfl, rfl⟩

/-- **C86, violation.** In version 1 the null error is taken for success. -/
theorem C86_violation_null_error (id : JV) (ha : answerable id = true) :
    classify (errorMsg false id .null) = .response id ⟨.null, false⟩ := by
  have h1 : Rpc.memberOf (errorMsg false id .null) (ascii "result") = .null := by unfold errorMsg; simp only [Bool.false_eq_true, if_false]; rw [member_build]; rfl
  have h2 : Rpc.memberOf (errorMsg false id .null) (ascii "error") = .null := by unfold errorMsg; simp only [Bool.false_eq_true, if_false]; rw [member_build]; rfl
  unfold classify
  simp only [id_errorMsg, ha, if_true, h1, h2]
  rfl

/-! ### Context -/

theorem lookup_map_val (f : JV → JV) (l : Members JV) (k : Bytes) : lookup (l.map (fun m => (m.1, f m.2))) k = (lookup l k).map f := by
  induction l with
  | nil => rfl
  | cons m l ih =>
    rw [List.map_cons, ObjB.lookup_cons, ObjB.lookup_cons]
    dsimp only
    by_cases h : m.1 = k
    · rw [if_pos h, if_pos h]; rfl
    · rw [if_neg h, if_neg h]; exact ih

/-- **C61.** A result is sent with the change of the context when that is a non-empty object or array, and without a context otherwise;
the receiver finds it, the result and the identifier in the message. -/
theorem C61_sent (r : Req) (v ctx : JV) (hc : r.cbs = false) (ha : answerable r.id = true) (hs : r.sent = false) :
    ∃ m f, prep r (.setResult v ctx) = some (r, .result m, f) ∧ Rpc.memberOf m (ascii "id") = r.id ∧
      Rpc.memberOf m (ascii "result") = v ∧
      ((∃ x l, ctx = .obj (x :: l)) ∨ (∃ x l, ctx = .arr (x :: l)) → Rpc.memberOf m (ascii "context") = ctx) ∧
      (¬ ((∃ x l, ctx = .obj (x :: l)) ∨ (∃ x l, ctx = .arr (x :: l))) → Rpc.memberOf m (ascii "context") = .undef) := by
  refine ⟨resultMsg r.v2 r.id v (ctxch ctx), postSend, ?_, id_resultMsg _ _ _ _, ?_, ?_, ?_⟩
  · simp [prep, hc, ha, hs]
  · unfold resultMsg
    split <;> rw [member_build] <;> exact getD_filter v
  · intro h
    have : ctxch ctx = ctx := by
      rcases h with ⟨x, l, rfl⟩ | ⟨x, l, rfl⟩ <;> rfl
    rw [this]
    unfold resultMsg
    split <;> rw [member_build] <;> exact getD_filter ctx
  · intro h
    have : ctxch ctx = .undef := by
      cases ctx with
      | obj l => cases l with
        | nil => rfl
        | cons x l => exact absurd (Or.inl ⟨x, l, rfl⟩) h
      | arr l => cases l with
        | nil => rfl
        | cons x l => exact absurd (Or.inr ⟨x, l, rfl⟩) h
      | _ => rfl
    rw [this]
    unfold resultMsg
    split <;> rw [member_build] <;> exact getD_filter .undef

/-- **C61.** For every context and every list of changes without undefined values, also with repeated keys: the new context is sorted; the
last change of a key counts: with null the key is absent, with another value it has that value; other keys are as in the context. -/
theorem C61_update_any (ctx ch : Members JV) (hc : StrictSorted ctx) (hd : ∀ m ∈ ch, defd m.2 = true) :
    StrictSorted (updateContext ctx ch) ∧ ∀ k, lookup (updateContext ctx ch) k = match lastVal ch k with
      | some v => if v = .null then none else some v
      | none => lookup ctx k := by
  have e : ∀ (l : Members JV) (s : OB JV),
      l.foldl (fun s m => if isNull m.2 then ObjB.unset defd .undef s m.1 else ObjB.setInternal defd s m) s =
        (l.map (fun m => (m.1, if isNull m.2 then JV.undef else m.2))).foldl (fun s m => ObjB.setInternal defd s m) s := by
    intro l
    induction l with
    | nil => intro s; rfl
    | cons m l ih =>
      intro s
      rw [List.foldl_cons, List.map_cons, List.foldl_cons, ih]
      congr 1
      cases isNull m.2 <;> simp [ObjB.unset, ObjB.set]
  unfold updateContext
  rw [e]
  obtain ⟨i, hr, hb, hdf⟩ := foldl_set_spec defd (ch.map (fun m => (m.1, if isNull m.2 then JV.undef else m.2)))
    (s := ObjB.ofBase ctx) (inv_ofBase false hc)
  obtain ⟨_, _, _, _, _, h6, h7⟩ := commit_spec defd i
  refine ⟨h6, ?_⟩
  intro k
  rw [h7, hr, hb, hdf]
  have e2 : recorded (ObjB.ofBase ctx : OB JV) k = none := by simp [ObjB.ofBase, recorded, lastVal, lookup]
  rw [e2, Option.or_none]
  have e3 : ∀ l : Members JV, lastVal (l.map (fun m => (m.1, if isNull m.2 then JV.undef else m.2))) k =
      (lastVal l k).map (fun v => if isNull v then JV.undef else v) := by
    intro l
    induction l with
    | nil => rfl
    | cons m l ih =>
      obtain ⟨a, w⟩ := m
      rw [List.map_cons, lastVal, lastVal, ih]
      cases lastVal l k with
      | some x => rfl
      | none => dsimp only [Option.map_none]; by_cases h : a = k <;> simp [h]
  rw [e3]
  cases hl : lastVal ch k with
  | none => rfl
  | some v =>
    have hv : defd v = true := hd (k, v) (Obj.lastVal_mem hl)
    cases v <;> simp_all [comb, isNull, defd, ObjB.ofBase, defaultMerge]
    all_goals (cases lookup ctx k <;> rfl)

/-- **C61.** For every context and every change (objects: strictly sorted keys; the change without undefined members): the new context is
sorted; a key of the change with null is absent, with another value has that value, other keys are as in the context. -/
theorem C61_update (ctx ch : Members JV) (hc : StrictSorted ctx) (hh : StrictSorted ch) (hd : ∀ m ∈ ch, defd m.2 = true) :
    StrictSorted (updateContext ctx ch) ∧ ∀ k, lookup (updateContext ctx ch) k = match lookup ch k with
      | some v => if v = .null then none else some v
      | none => lookup ctx k := by
  rw [show lookup ch = lastVal ch from funext (fun k => Obj.lookup_eq_lastVal hh k)]
  exact C61_update_any ctx ch hc hd

/-- **C61.** A received array as a change of the context: its items have no keys, so they are set one after another under the empty key and
the last one stays (or removes the member, when it is null). Other values that are not objects change nothing. -/
theorem C61_array (ctx : Members JV) (hc : StrictSorted ctx) (l : List JV) (hd : ∀ v ∈ l, defd v = true) (k : Bytes) :
    lookup (updateContext ctx (members (.arr l))) k =
      if k = [] then (match l.getLast? with
        | none => lookup ctx []
        | some v => if v = .null then none else some v)
      else lookup ctx k := by
  have h := (C61_update_any ctx (members (.arr l)) hc (by
    intro m hm
    simp only [members, List.mem_map] at hm
    obtain ⟨v, hv, rfl⟩ := hm
    exact hd v hv)).2 k
  rw [h]
  have e : lastVal (members (.arr l)) k = if k = [] then l.getLast? else none := by
    clear h hd
    simp only [members]
    induction l with
    | nil => simp [lastVal]
    | cons v l ih =>
      rw [List.map_cons, lastVal, ih]
      by_cases hk : k = []
      · subst hk
        cases l with
        | nil => simp
        | cons w l =>
          rw [if_pos rfl, if_pos rfl, List.getLast?_cons_cons, List.getLast?_eq_some_getLast (l := w :: l) (by simp)]
          try rfl
      · simp [hk, Ne.symm hk]
  rw [e]
  by_cases hk : k = []
  · subst hk
    rw [if_pos rfl, if_pos rfl]
    cases l.getLast? <;> rfl
  · simp [hk]

example : StrictSorted [(ascii "a", JV.null)] ∧ updateContext [(ascii "a", .null)] (members (.arr [.bool true, .bool false])) =
    [([], .bool false), (ascii "a", .null)] := by decide +kernel

example : updateContext [(ascii "a", .null), (ascii "b", .str (ascii "x"))] [(ascii "b", .null), (ascii "c", .str (ascii "y"))] =
    [(ascii "a", .null), (ascii "c", .str (ascii "y"))] := by decide +kernel

end Imt.Props
