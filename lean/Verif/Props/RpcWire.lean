import Verif.Model.RpcWire
import Verif.Props.RpcServer
import Verif.Props.Serializer
/-!
# A remote call over a text stream (C144)
-/
namespace Imt.Props
open Imt Imt.Spec Imt.Obj Imt.ObjB Imt.Rpc Imt.Parser

/-! ### Reading of objects built from members -/

/-- What arrives: an undefined member is left out, anything else is read back (`Reads` of C01). -/
def Arrives (cfg : Cfg) (v v' : JV) : Prop := if defd v then Reads cfg v v' else v' = .undef

theorem reads_defd {cfg : Cfg} {v v' : JV} (h : Reads cfg v v') : defd v' = true := by cases h <;> rfl

theorem reads_isNull {cfg : Cfg} {v v' : JV} (h : Reads cfg v v') : isNull v' = isNull v := by cases h <;> rfl

theorem readsM_keys {cfg : Cfg} : ∀ {l l' : List (Bytes × JV)}, ReadsM cfg l l' → l'.map (·.1) = l.map (·.1)
  | _, _, .nil => rfl
  | _, _, .cons _ h => by rw [List.map_cons, List.map_cons, readsM_keys h]

theorem readsM_lookup {cfg : Cfg} : ∀ {l l' : List (Bytes × JV)}, ReadsM cfg l l' → ∀ k,
    (lookup l k = none ∧ lookup l' k = none) ∨ ∃ v v', lookup l k = some v ∧ lookup l' k = some v' ∧ Reads cfg v v'
  | _, _, .nil, _ => .inl ⟨rfl, rfl⟩
  | _, _, .cons (k := k') (v := v) (v' := v') hv h, k => by
    rw [ObjB.lookup_cons, ObjB.lookup_cons]
    dsimp only
    by_cases e : k' = k
    · rw [if_pos e, if_pos e]; exact .inr ⟨v, v', rfl, rfl, hv⟩
    · rw [if_neg e, if_neg e]; exact readsM_lookup h k

theorem sorted_keys {α β} {l : List (Bytes × α)} {l' : List (Bytes × β)} (h : l'.map (·.1) = l.map (·.1)) (hs : StrictSorted l) : StrictSorted l' := by
  have h1 : (l.map (·.1)).Pairwise (fun a b => cmpBytes a b = .lt) := List.pairwise_map.2 hs
  rw [← h] at h1
  exact List.pairwise_map.1 h1

theorem lastVal_map_key {g : Bytes → JV} (L : Members JV) (k : Bytes) :
    lastVal (L.map fun m => (m.1, g m.1)) k = (lastVal L k).map fun _ => g k := by
  induction L with
  | nil => rfl
  | cons m L ih =>
    obtain ⟨k', v⟩ := m
    rw [List.map_cons]
    simp only [lastVal]
    rw [ih]
    cases lastVal L k with
    | some w => rfl
    | none =>
      by_cases e : k' = k
      · simp [e]
      · simp [e]

/-- Reading a built object back gives the object built of the members as they arrive. -/
theorem reads_build {cfg : Cfg} {L : Members JV} {w : JV} (h : Reads cfg (build L) w) :
    ∃ g : Bytes → JV, w = build (L.map fun m => (m.1, g m.1)) ∧ ∀ k v, lastVal L k = some v → Arrives cfg v (g k) := by
  obtain ⟨hs, hl⟩ := build_spec L
  unfold build at h
  cases h with
  | obj hm =>
    rename_i l'
    refine ⟨fun k => (lookup l' k).getD .undef, ?_, ?_⟩
    · unfold build
      congr 1
      obtain ⟨hs', hl'⟩ := build_spec (L.map fun m => (m.1, (lookup l' m.1).getD .undef))
      refine eq_of_lookup_eq (sorted_keys (readsM_keys hm) hs) hs' fun k => ?_
      rw [hl', lastVal_map_key (g := fun k => (lookup l' k).getD .undef)]
      rcases readsM_lookup hm k with ⟨h1, h2⟩ | ⟨v, v', h1, h2, h3⟩
      · rw [h2]
        cases lastVal L k <;> rfl
      · rw [h2]
        rw [hl] at h1
        cases hk : lastVal L k with
        | none => rw [hk] at h1; cases h1
        | some x => simp [Option.filter, reads_defd h3]
    · intro k v hk
      unfold Arrives
      dsimp only
      rcases readsM_lookup hm k with ⟨h1, h2⟩ | ⟨x, x', h1, h2, h3⟩
      · rw [hl, hk] at h1
        rw [h2]
        cases hd : defd v with
        | true => simp [Option.filter, hd] at h1
        | false => rfl
      · rw [hl, hk] at h1
        cases hd : defd v with
        | true =>
          simp only [Option.filter, hd, if_true, Option.some.injEq] at h1
          rw [h2, h1]
          exact h3
        | false => simp [Option.filter, hd] at h1

theorem arrives_str {cfg : Cfg} {s : Bytes} {w : JV} (h : Arrives cfg (.str s) w) : w = .str s := by
  have h : Reads cfg (.str s) w := h
  cases h; rfl

theorem arrives_null {cfg : Cfg} {w : JV} (h : Arrives cfg .null w) : w = .null := by
  have h : Reads cfg .null w := h
  cases h; rfl

theorem arrives_uint {cfg : Cfg} (hp : cfg.precise = false) {n : Nat} {w : JV} (h : Arrives cfg (.num (.uint n)) w) : w = .num (.uint n) := by
  have h : Reads cfg (.num (.uint n)) w := h
  cases h with
  | uint _ => rfl
  | uintP h' => rw [hp] at h'; cases h'

theorem arrives_plain {cfg : Cfg} (hp : cfg.precise = false) {v w : JV} (h : Arrives cfg v w) (hv : v = .undef ∨ Spec.Plain v) : w = v := by
  unfold Arrives at h
  rcases hv with rfl | hv
  · exact h
  · cases hd : defd v with
    | true => rw [hd] at h; exact Trip.reads_eq cfg hp h hv
    | false =>
      cases v <;> try cases hd
      rw [Spec.Plain] at hv
      exact hv.elim

/-! ### Values a text can carry -/

/-- Well-formed strings, no doubles, no strings "∞": the scope of C01. -/
def Carried (f : Decimal → Bytes) (cfg : Cfg) (v : JV) : Prop := Printable true f v ∧ Tripable cfg v

theorem printableM_of {f : Decimal → Bytes} : ∀ {l : List (Bytes × JV)}, (∀ m ∈ l, StrOk true m.1 ∧ Printable true f m.2) → PrintableM true f l
  | [], _ => by rw [PrintableM]; trivial
  | (k, v) :: l, h => by
    rw [PrintableM]
    exact ⟨(h _ List.mem_cons_self).1, (h _ List.mem_cons_self).2, printableM_of fun m hm => h m (List.mem_cons_of_mem _ hm)⟩

theorem tripableM_of {cfg : Cfg} : ∀ {l : List (Bytes × JV)}, (∀ m ∈ l, Tripable cfg m.2) → TripableM cfg l
  | [], _ => by rw [TripableM]; trivial
  | (k, v) :: l, h => by
    rw [TripableM]
    exact ⟨h _ List.mem_cons_self, tripableM_of fun m hm => h m (List.mem_cons_of_mem _ hm)⟩

theorem carried_build {f : Decimal → Bytes} {cfg : Cfg} {L : Members JV}
    (h : ∀ m ∈ L, StrOk true m.1 ∧ (defd m.2 = true → Carried f cfg m.2)) : Carried f cfg (build L) := by
  obtain ⟨hs, hl⟩ := build_spec L
  have key : ∀ m ∈ (ObjB.commit defd (record defd new L)).1, StrOk true m.1 ∧ Carried f cfg m.2 := by
    intro m hm
    have h1 := lookup_of_mem hs (k := m.1) (v := m.2) hm
    rw [hl] at h1
    cases hk : lastVal L m.1 with
    | none => rw [hk] at h1; cases h1
    | some v =>
      rw [hk] at h1
      cases hd : defd v with
      | false => simp [Option.filter, hd] at h1
      | true =>
        simp only [Option.filter, hd, if_true, Option.some.injEq] at h1
        rw [← h1]
        have := h _ (lastVal_mem hk)
        exact ⟨this.1, this.2 hd⟩
  unfold build Carried
  rw [Printable, Tripable]
  exact ⟨printableM_of fun m hm => ⟨(key m hm).1, (key m hm).2.1⟩, hs, tripableM_of fun m hm => (key m hm).2.2⟩

/-- A text of ASCII characters. -/
theorem strOk_ascii (s : Bytes) (h : ∀ c ∈ s, c ≤ 0x7F) : StrOk true s := by
  refine ⟨?_, .inl rfl⟩
  induction s with
  | nil => exact .nil
  | cons c s ih => exact .one ⟨Nat.zero_le _, h c List.mem_cons_self⟩ (ih fun x hx => h x (List.mem_cons_of_mem _ hx))

theorem carried_version (f : Decimal → Bytes) (cfg : Cfg) : Carried f cfg (.str (ascii "2.0")) := by
  constructor
  · rw [Printable]; exact strOk_ascii _ (by decide)
  · rw [Tripable]; decide

theorem carried_null (f : Decimal → Bytes) (cfg : Cfg) : Carried f cfg .null := by
  unfold Carried
  simp [Printable, Tripable]

theorem carried_uint (f : Decimal → Bytes) (cfg : Cfg) {n : Nat} (h : n < 2 ^ 64) : Carried f cfg (.num (.uint n)) := by
  unfold Carried
  simp only [Printable, Tripable]
  exact ⟨trivial, h⟩

theorem transfer_reads {f : Decimal → Bytes} {cfg : Cfg} (htl : ∀ n < 2 ^ 64, cfg.tooLong n = false) {v : JV} (h : Carried f cfg v)
    {rest : Bytes} (hr : StopNum rest) : ∃ v', transfer f cfg rest v = .ok (v', rest) ∧ Reads cfg v v' := by
  obtain ⟨t, v', h1, h2, h3⟩ := C01_round_trip_partial f cfg htl v h.1 h.2 rest hr
  exact ⟨v', by unfold transfer; rw [h1]; exact h2, h3⟩

/-- Nothing, or a value the text can carry. -/
def CarriedOpt (f : Decimal → Bytes) (cfg : Cfg) (v : JV) : Prop := defd v = true → Carried f cfg v

/-- The request as it arrives. -/
theorem transfer_call {f : Decimal → Bytes} {cfg : Cfg} (htl : ∀ n < 2 ^ 64, cfg.tooLong n = false) (hp : cfg.precise = false)
    (v2 : Bool) {id : Nat} (hid : id < 2 ^ 64) {n : Bytes} (hn : Carried f cfg (.str n)) {args ctx : JV} (ha : CarriedOpt f cfg args)
    (hc : CarriedOpt f cfg ctx) {rest : Bytes} (hr : StopNum rest) :
    ∃ args' ctx', transfer f cfg rest (callMsg v2 id n args ctx) = .ok (callMsg v2 id n args' ctx', rest) ∧
      Arrives cfg args args' ∧ Arrives cfg ctx ctx' := by
  have hk : ∀ s ∈ ["method", "params", "id", "jsonrpc", "context"], StrOk true (ascii s) := by
    intro s hs
    apply strOk_ascii
    revert s
    decide
  cases v2 with
  | true =>
    unfold callMsg
    simp only [if_true]
    obtain ⟨w, h1, h2⟩ := transfer_reads htl (carried_build (f := f) (cfg := cfg) (L := [(ascii "method", .str n), (ascii "params", args),
      (ascii "id", .num (.uint id)), (ascii "jsonrpc", .str (ascii "2.0")), (ascii "context", ctx)]) (by
        intro m hm
        simp only [List.mem_cons, List.not_mem_nil, or_false] at hm
        rcases hm with e | e | e | e | e <;> subst e
        · exact ⟨hk _ (by decide), fun _ => hn⟩
        · exact ⟨hk _ (by decide), ha⟩
        · exact ⟨hk _ (by decide), fun _ => carried_uint f cfg hid⟩
        · exact ⟨hk _ (by decide), fun _ => carried_version f cfg⟩
        · exact ⟨hk _ (by decide), hc⟩)) hr
    obtain ⟨g, e, hg⟩ := reads_build h2
    have e1 : g (ascii "method") = .str n := arrives_str (hg (ascii "method") _ rfl)
    have e2 : g (ascii "id") = .num (.uint id) := arrives_uint hp (hg (ascii "id") _ rfl)
    have e3 : g (ascii "jsonrpc") = .str (ascii "2.0") := arrives_str (hg (ascii "jsonrpc") _ rfl)
    refine ⟨g (ascii "params"), g (ascii "context"), ?_, hg _ _ rfl, hg _ _ rfl⟩
    rw [h1, e]
    simp only [List.map_cons, List.map_nil, e1, e2, e3]
  | false =>
    unfold callMsg
    simp only [Bool.false_eq_true, if_false]
    obtain ⟨w, h1, h2⟩ := transfer_reads htl (carried_build (f := f) (cfg := cfg) (L := [(ascii "method", .str n), (ascii "params", args),
      (ascii "id", .num (.uint id)), (ascii "context", ctx)]) (by
        intro m hm
        simp only [List.mem_cons, List.not_mem_nil, or_false] at hm
        rcases hm with e | e | e | e <;> subst e
        · exact ⟨hk _ (by decide), fun _ => hn⟩
        · exact ⟨hk _ (by decide), ha⟩
        · exact ⟨hk _ (by decide), fun _ => carried_uint f cfg hid⟩
        · exact ⟨hk _ (by decide), hc⟩)) hr
    obtain ⟨g, e, hg⟩ := reads_build h2
    have e1 : g (ascii "method") = .str n := arrives_str (hg (ascii "method") _ rfl)
    have e2 : g (ascii "id") = .num (.uint id) := arrives_uint hp (hg (ascii "id") _ rfl)
    refine ⟨g (ascii "params"), g (ascii "context"), ?_, hg _ _ rfl, hg _ _ rfl⟩
    rw [h1, e]
    simp only [List.map_cons, List.map_nil, e1, e2]

/-- The response with a result as it arrives. -/
theorem transfer_result {f : Decimal → Bytes} {cfg : Cfg} (htl : ∀ n < 2 ^ 64, cfg.tooLong n = false) (hp : cfg.precise = false)
    (v2 : Bool) {id : Nat} (hid : id < 2 ^ 64) {v ctx : JV} (hv : CarriedOpt f cfg v) (hc : CarriedOpt f cfg ctx)
    {rest : Bytes} (hr : StopNum rest) :
    ∃ v' ctx', transfer f cfg rest (resultMsg v2 (.num (.uint id)) v ctx) = .ok (resultMsg v2 (.num (.uint id)) v' ctx', rest) ∧
      Arrives cfg v v' ∧ Arrives cfg ctx ctx' := by
  have hk : ∀ s ∈ ["id", "result", "error", "jsonrpc", "context"], StrOk true (ascii s) := by
    intro s hs
    apply strOk_ascii
    revert s
    decide
  cases v2 with
  | true =>
    unfold resultMsg
    simp only [if_true]
    obtain ⟨w, h1, h2⟩ := transfer_reads htl (carried_build (f := f) (cfg := cfg) (L := [(ascii "id", .num (.uint id)), (ascii "result", v),
      (ascii "jsonrpc", .str (ascii "2.0")), (ascii "context", ctx)]) (by
        intro m hm
        simp only [List.mem_cons, List.not_mem_nil, or_false] at hm
        rcases hm with e | e | e | e <;> subst e
        · exact ⟨hk _ (by decide), fun _ => carried_uint f cfg hid⟩
        · exact ⟨hk _ (by decide), hv⟩
        · exact ⟨hk _ (by decide), fun _ => carried_version f cfg⟩
        · exact ⟨hk _ (by decide), hc⟩)) hr
    obtain ⟨g, e, hg⟩ := reads_build h2
    have e2 : g (ascii "id") = .num (.uint id) := arrives_uint hp (hg (ascii "id") _ rfl)
    have e3 : g (ascii "jsonrpc") = .str (ascii "2.0") := arrives_str (hg (ascii "jsonrpc") _ rfl)
    refine ⟨g (ascii "result"), g (ascii "context"), ?_, hg _ _ rfl, hg _ _ rfl⟩
    rw [h1, e]
    simp only [List.map_cons, List.map_nil, e2, e3]
  | false =>
    unfold resultMsg
    simp only [Bool.false_eq_true, if_false]
    obtain ⟨w, h1, h2⟩ := transfer_reads htl (carried_build (f := f) (cfg := cfg) (L := [(ascii "id", .num (.uint id)), (ascii "result", v),
      (ascii "error", .null), (ascii "context", ctx)]) (by
        intro m hm
        simp only [List.mem_cons, List.not_mem_nil, or_false] at hm
        rcases hm with e | e | e | e <;> subst e
        · exact ⟨hk _ (by decide), fun _ => carried_uint f cfg hid⟩
        · exact ⟨hk _ (by decide), hv⟩
        · exact ⟨hk _ (by decide), fun _ => carried_null f cfg⟩
        · exact ⟨hk _ (by decide), hc⟩)) hr
    obtain ⟨g, e, hg⟩ := reads_build h2
    have e2 : g (ascii "id") = .num (.uint id) := arrives_uint hp (hg (ascii "id") _ rfl)
    have e3 : g (ascii "error") = .null := arrives_null (hg (ascii "error") _ rfl)
    refine ⟨g (ascii "result"), g (ascii "context"), ?_, hg _ _ rfl, hg _ _ rfl⟩
    rw [h1, e]
    simp only [List.map_cons, List.map_nil, e2, e3]

/-- The response with an error as it arrives. -/
theorem transfer_error {f : Decimal → Bytes} {cfg : Cfg} (htl : ∀ n < 2 ^ 64, cfg.tooLong n = false) (hp : cfg.precise = false)
    (v2 : Bool) {id : Nat} (hid : id < 2 ^ 64) {v : JV} (hv : CarriedOpt f cfg v) {rest : Bytes} (hr : StopNum rest) :
    ∃ v', transfer f cfg rest (errorMsg v2 (.num (.uint id)) v) = .ok (errorMsg v2 (.num (.uint id)) v', rest) ∧ Arrives cfg v v' := by
  have hk : ∀ s ∈ ["id", "result", "error", "jsonrpc"], StrOk true (ascii s) := by
    intro s hs
    apply strOk_ascii
    revert s
    decide
  cases v2 with
  | true =>
    unfold errorMsg
    simp only [if_true]
    obtain ⟨w, h1, h2⟩ := transfer_reads htl (carried_build (f := f) (cfg := cfg) (L := [(ascii "id", .num (.uint id)), (ascii "error", v),
      (ascii "jsonrpc", .str (ascii "2.0"))]) (by
        intro m hm
        simp only [List.mem_cons, List.not_mem_nil, or_false] at hm
        rcases hm with e | e | e <;> subst e
        · exact ⟨hk _ (by decide), fun _ => carried_uint f cfg hid⟩
        · exact ⟨hk _ (by decide), hv⟩
        · exact ⟨hk _ (by decide), fun _ => carried_version f cfg⟩)) hr
    obtain ⟨g, e, hg⟩ := reads_build h2
    have e2 : g (ascii "id") = .num (.uint id) := arrives_uint hp (hg (ascii "id") _ rfl)
    have e3 : g (ascii "jsonrpc") = .str (ascii "2.0") := arrives_str (hg (ascii "jsonrpc") _ rfl)
    refine ⟨g (ascii "error"), ?_, hg _ _ rfl⟩
    rw [h1, e]
    simp only [List.map_cons, List.map_nil, e2, e3]
  | false =>
    unfold errorMsg
    simp only [Bool.false_eq_true, if_false]
    obtain ⟨w, h1, h2⟩ := transfer_reads htl (carried_build (f := f) (cfg := cfg) (L := [(ascii "id", .num (.uint id)), (ascii "error", v),
      (ascii "result", .null)]) (by
        intro m hm
        simp only [List.mem_cons, List.not_mem_nil, or_false] at hm
        rcases hm with e | e | e <;> subst e
        · exact ⟨hk _ (by decide), fun _ => carried_uint f cfg hid⟩
        · exact ⟨hk _ (by decide), hv⟩
        · exact ⟨hk _ (by decide), fun _ => carried_null f cfg⟩)) hr
    obtain ⟨g, e, hg⟩ := reads_build h2
    have e2 : g (ascii "id") = .num (.uint id) := arrives_uint hp (hg (ascii "id") _ rfl)
    have e3 : g (ascii "result") = .null := arrives_null (hg (ascii "result") _ rfl)
    refine ⟨g (ascii "error"), ?_, hg _ _ rfl⟩
    rw [h1, e]
    simp only [List.map_cons, List.map_nil, e2, e3]

/-! ### C144: the whole call -/

/-- A result or error which the text can carry; results and errors as in C119. -/
def CarriedRes (f : Decimal → Bytes) (cfg : Cfg) : (JV × JV) ⊕ JV → Prop
  | .inl x => Carried f cfg x.1 ∧ CarriedOpt f cfg (ctxch x.2)
  | .inr e => Carried f cfg e

/-- The outcome as it arrives. -/
def ResArrives (cfg : Cfg) : (JV × JV) ⊕ JV → Result → Prop
  | .inl x, r => Reads cfg x.1 r.value ∧ r.error = false
  | .inr e, r => Reads cfg e r.value ∧ r.error = true

/-- **C144** (partial: no doubles, no strings "∞"; results are defined, errors are defined and not null). In any state of the client, the message
of a pending call is written to a stream, whatever follows it there, and read by the server; the method registered under
the name runs on the arguments and the context as they arrive; its response is written, read by the client and completes that call, with
the result or error as it arrives, and no other. `Arrives` is the exact value, except that a nonnegative signed number arrives unsigned. Both
streams are left at what follows the message. Missing: see the violation, C119 and C01. -/
theorem C144_call_partial (f : Decimal → Bytes) (cfg : Cfg) (htl : ∀ n < 2 ^ 64, cfg.tooLong n = false) (hp : cfg.precise = false)
    (v2 : Bool) (cops : List COp) (hs : ∀ o ∈ cops, sends o = true) (c : Client) (hcl : crun { ver := some v2 } cops = .ok c)
    (id t : Nat) (hid : id < 2 ^ 64) (ht : (id, t) ∈ c.pend)
    (s : Server) (fl : Flags) (what : JV) (fuel : Nat) (ops : List RegOp) (hr : s.reg = regRun [] ops) (n : Bytes)
    (m : Parsed → (JV × JV) ⊕ JV) (hm : registered ops n = some (computes m)) (hn : Carried f cfg (.str n)) (args ctx : JV)
    (ha : CarriedOpt f cfg args) (hc : CarriedOpt f cfg ctx) (hctx : ctx = .undef ∨ ∃ cx, ctx = .obj cx)
    (hres : ∀ p, Telling (m p) ∧ CarriedRes f cfg (m p)) (rest rest' : Bytes) (h1 : StopNum rest) (h2 : StopNum rest') :
    ∃ req args' args'' ctx' r msg o o' res,
      transfer f cfg rest (callMsg v2 id n args ctx) = .ok (req, rest) ∧ Arrives cfg args args' ∧ Arrives cfg ctx ctx' ∧
      ArgsOf fl.named args' args'' ∧
      serve s fl what takes (fuel + 2) req = some r ∧ r.out = [msg] ∧ respObj msg = some o ∧
      transfer f cfg rest' o = .ok (o', rest') ∧
      ResArrives cfg (m ⟨.str n, args'', .num (.uint id), ctx', if v2 then .str (ascii "2.0") else .undef⟩) res ∧
      receive c o' = .ok { c with
        pend := c.pend.filter (fun e => e.1 != id)
        done := c.done ++ [(t, .answered id res)] } := by
  obtain ⟨args', ctx', e1, e2, e3⟩ := transfer_call htl hp v2 hid hn ha hc h1
  have hctx' : ctx' = .undef ∨ ∃ cx, ctx' = .obj cx := by
    unfold Arrives at e3
    rcases hctx with rfl | ⟨cx, rfl⟩
    · exact .inl e3
    · have e3 : Reads cfg (.obj cx) ctx' := e3
      cases e3
      exact .inr ⟨_, rfl⟩
  obtain ⟨r, e4, ho⟩ := serve_computes s fl what fuel ops hr n m hm v2 id args' _ ctx' (argsOf_norm fl.named args') hctx'
  have hq := hres ⟨.str n, normParams fl.named args', .num (.uint id), ctx', if v2 then .str (ascii "2.0") else .undef⟩
  revert ho hq
  cases hmp : m ⟨.str n, normParams fl.named args', .num (.uint id), ctx', if v2 then .str (ascii "2.0") else .undef⟩ with
  | inl x =>
    intro ho hq
    obtain ⟨v', c', e5, e6, _⟩ := transfer_result (f := f) htl hp v2 hid (fun _ => hq.2.1) hq.2.2 h2
    have e6 : Reads cfg x.1 v' := by
      unfold Arrives at e6
      rw [show defd x.1 = true from hq.1] at e6
      exact e6
    have hcls := (C86_understood_partial v2 (.num (.uint id)) rfl v' c' (reads_defd e6)).1
    exact ⟨_, args', _, ctx', r, _, _, _, ⟨v', false⟩, e1, e2, e3, argsOf_norm _ _, e4, ho, rfl, e5, by rw [hmp]; exact ⟨e6, rfl⟩,
      by rw [receive_of hcls]; exact (C60_response v2 cops hs c hcl id _).1 t ht⟩
  | inr y =>
    intro ho hq
    obtain ⟨v', e5, e6⟩ := transfer_error (f := f) htl hp v2 hid (fun _ => hq.2) h2
    have e6 : Reads cfg y v' := by
      unfold Arrives at e6
      rw [show defd y = true from hq.1.1] at e6
      exact e6
    have hcls := (C86_understood_partial v2 (.num (.uint id)) rfl v' .undef (reads_defd e6)).2 (by rw [reads_isNull e6]; exact hq.1.2)
    exact ⟨_, args', _, ctx', r, _, _, _, ⟨v', true⟩, e1, e2, e3, argsOf_norm _ _, e4, ho, rfl, e5, by rw [hmp]; exact ⟨e6, rfl⟩,
      by rw [receive_of hcls]; exact (C60_response v2 cops hs c hcl id _).1 t ht⟩

/-- Plain results. -/
def PlainRes : (JV × JV) ⊕ JV → Prop
  | .inl x => Spec.Plain x.1
  | .inr e => Spec.Plain e

/-- **C144, exact values** (partial in the same way). With arguments, context and result of nonnegative unsigned and negative signed numbers,
strings, arrays and objects the call over text does what the call of C119 does: the method runs on the arguments and context of the caller and the caller gets
the result or error of the method. -/
theorem C144_exact_partial (f : Decimal → Bytes) (cfg : Cfg) (htl : ∀ n < 2 ^ 64, cfg.tooLong n = false) (hp : cfg.precise = false)
    (v2 : Bool) (cops : List COp) (hs : ∀ o ∈ cops, sends o = true) (c : Client) (hcl : crun { ver := some v2 } cops = .ok c)
    (id t : Nat) (hid : id < 2 ^ 64) (ht : (id, t) ∈ c.pend)
    (s : Server) (fl : Flags) (what : JV) (fuel : Nat) (ops : List RegOp) (hr : s.reg = regRun [] ops) (n : Bytes)
    (m : Parsed → (JV × JV) ⊕ JV) (hm : registered ops n = some (computes m)) (hn : Carried f cfg (.str n)) (args args' ctx : JV)
    (ha : CarriedOpt f cfg args) (hc : CarriedOpt f cfg ctx) (hctx : ctx = .undef ∨ ∃ cx, ctx = .obj cx)
    (hap : args = .undef ∨ Spec.Plain args) (hcp : ctx = .undef ∨ Spec.Plain ctx) (hargs : ArgsOf fl.named args args')
    (hres : ∀ p, Telling (m p) ∧ CarriedRes f cfg (m p) ∧ PlainRes (m p)) (rest rest' : Bytes) (h1 : StopNum rest) (h2 : StopNum rest') :
    ∃ r msg o o',
      transfer f cfg rest (callMsg v2 id n args ctx) = .ok (callMsg v2 id n args ctx, rest) ∧
      serve s fl what takes (fuel + 2) (callMsg v2 id n args ctx) = some r ∧ r.out = [msg] ∧ respObj msg = some o ∧
      transfer f cfg rest' o = .ok (o', rest') ∧
      receive c o' = .ok { c with
        pend := c.pend.filter (fun e => e.1 != id)
        done := c.done ++ [(t, .answered id (callResult (m ⟨.str n, args', .num (.uint id), ctx, if v2 then .str (ascii "2.0") else .undef⟩)))] } := by
  obtain ⟨args1, ctx1, e1, e2, e3⟩ := transfer_call (f := f) htl hp v2 hid hn ha hc h1
  rw [arrives_plain hp e2 hap, arrives_plain hp e3 hcp] at e1
  obtain ⟨req, args2, args3, ctx2, r, msg, o, o', res, g1, g2, g3, g4, g5, g6, g7, g8, g9, g10⟩ :=
    C144_call_partial f cfg htl hp v2 cops hs c hcl id t hid ht s fl what fuel ops hr n m hm hn args ctx ha hc hctx
      (fun p => ⟨(hres p).1, (hres p).2.1⟩) rest rest' h1 h2
  rw [e1] at g1
  cases g1
  have i2 := arrives_plain hp g2 hap
  have i3 := arrives_plain hp g3 hcp
  subst i2 i3
  have i4 : args3 = args' := by
    cases hargs <;> cases g4 <;> first | rfl | simp_all
  subst i4
  refine ⟨r, msg, o, o', e1, g5, g6, g7, g8, ?_⟩
  rw [g10]
  have hq := (hres ⟨.str n, args3, .num (.uint id), ctx2, if v2 then .str (ascii "2.0") else .undef⟩).2.2
  revert g9 hq
  cases m ⟨.str n, args3, .num (.uint id), ctx2, if v2 then .str (ascii "2.0") else .undef⟩ with
  | inl x =>
    intro g9 hq
    obtain ⟨v, b⟩ := res
    rw [show b = false from g9.2, show v = x.1 from Trip.reads_eq cfg hp g9.1 hq]
    rfl
  | inr y =>
    intro g9 hq
    obtain ⟨v, b⟩ := res
    rw [show b = true from g9.2, show v = y from Trip.reads_eq cfg hp g9.1 hq]
    rfl

/-- A method answering with its arguments on such a connection; the hypotheses can be met. -/
example (f : Decimal → Bytes) : (∀ n < 2 ^ 64, ({} : Cfg).tooLong n = false) ∧
    (∃ c t, crun { ver := some true } [.call] = .ok c ∧ (1, t) ∈ c.pend) ∧
    registered [.add (ascii "m") (computes fun p => if p.params = .arr [] then .inr (.str (ascii "none")) else .inl (.arr [.num (.int (-3))], .undef))] (ascii "m") =
      some (computes fun p => if p.params = .arr [] then .inr (.str (ascii "none")) else .inl (.arr [.num (.int (-3))], .undef)) ∧
    Carried f {} (.str (ascii "m")) ∧ Carried f {} (.arr [.num (.int (-3)), .str (ascii "x")]) ∧ Spec.Plain (.arr [.num (.int (-3)), .str (ascii "x")]) ∧
    ArgsOf false (.arr [.num (.int (-3)), .str (ascii "x")]) (.arr [.num (.int (-3)), .str (ascii "x")]) ∧ StopNum [0x7B] := by
  refine ⟨fun _ _ => rfl, ⟨_, _, rfl, List.mem_cons_self⟩, rfl, ?_, ?_, ?_, .array _, ?_⟩
  · exact ⟨by rw [Printable]; exact strOk_ascii _ (by decide), by rw [Tripable]; decide⟩
  · refine ⟨?_, ?_⟩
    · simp only [Printable, PrintableL]
      exact ⟨trivial, strOk_ascii _ (by decide), trivial⟩
    · simp only [Tripable, TripableL]
      decide
  · simp [Spec.Plain, PlainL]
  · intro c r e
    cases e
    decide

/-- **C144, violation.** A method called "∞" cannot be called over text: its name arrives as a number and every server answers "Invalid request",
whatever it has registered. -/
theorem C144_violation_infinity (s : Server) (fl : Flags) (what : JV) (fuel : Nat) :
    ∃ req r, transfer (fun _ => []) {} [] (callMsg true 1 infSign (.arr []) .undef) = .ok (req, []) ∧
      memberOf req (ascii "method") = .num (.inf false) ∧
      serve s fl what takes (fuel + 2) req = some r ∧
      r.out = [.error (errorMsg true (.num (.uint 1)) (s.fmt (-32600) (ascii "Invalid request") .undef))] := by
  have e : transfer (fun _ => []) {} [] (callMsg true 1 infSign (.arr []) .undef) = .ok (.obj [(ascii "id", .num (.uint 1)),
      (ascii "jsonrpc", .str (ascii "2.0")), (ascii "method", .num (.inf false)), (ascii "params", .arr [])], []) := by decide +kernel
  obtain ⟨r, h1, h2⟩ := C118_invalid s fl what fuel [(ascii "id", .num (.uint 1)),
      (ascii "jsonrpc", .str (ascii "2.0")), (ascii "method", .num (.inf false)), (ascii "params", .arr [])] (by decide +kernel)
      (by rintro ⟨⟨n, hn⟩, _⟩; exact JV.noConfusion hn)
  exact ⟨_, r, e, by decide +kernel, h1, h2⟩

end Imt.Props
