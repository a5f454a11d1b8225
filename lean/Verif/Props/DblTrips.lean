import Verif.Props.SerDouble
import Verif.Props.SerLine
import Verif.Props.RpcWire
/-!
# Trees with doubles in compressed documents (C153) and in remote calls (C144)
-/
set_option exponentiation.threshold 3000
namespace Imt.Props
open Imt Imt.Spec Imt.Fp Imt.Ser Imt.Parser Imt.Compr

theorem normal_tokOk {lib : Lib} (hl : LgOk lib) (hp : Pow01Ok lib) (u : Bool) (prec : Nat) (cfg : Cfg)
    (htl : ∀ n < 2 ^ 64, cfg.tooLong n = false) {v : JV} (hd : AllDbl Normal v) : AllDbl (TokOk cfg (fmtD lib u prec)) v :=
  allDbl_mono (fun d hn => by obtain ⟨t, a1, a2, a3, -⟩ := normal_tok hl hp u prec cfg htl d hn; exact ⟨t, a1, (fmtD_ok a2).symm, a3⟩) v hd

/-- **C153, doubles.** As `C153_trip_partial`, for trees whose doubles are zero or normal: they come back as in C01, near to what they were.
Missing: subnormal doubles (C106) and what is missing in C01 and C02. -/
theorem C153_trip_doubles_partial {lib : Lib} (hl : LgOk lib) (hp : Pow01Ok lib) (u8 : Bool) (prec : Nat) (cfg : Cfg)
    (htl : ∀ n < 2 ^ 64, cfg.tooLong n = false) (v : JV) (hd : AllDbl Normal v)
    (h : Printable u8 (fmtD lib u8 prec) (blank v)) (ht : Tripable cfg (blank v)) (rest : Bytes) :
    ∃ t out d v', stringifyD lib u8 prec v = .ok t ∧ compressAll t = .ok out ∧ getAll (t.length + 1) { inp := out ++ rest } = .ok (t, d) ∧
      d.inp = rest ∧ parse cfg t = .ok (v', []) ∧ Tree (Near cfg lib prec) v v' := by
  obtain ⟨t, v', h1, h2, h3⟩ := round_dbl hl hp u8 prec cfg htl v hd h ht [] (by intro _ _ h; cases h)
  rw [List.append_nil] at h2
  have hc := ser_clean u8 (fmtD lib u8 prec) _ (printable_asPrec u8 cfg _ v (normal_tokOk hl hp u8 prec cfg htl hd) h)
  rw [ser_asPrec] at hc
  have e : ser u8 (fmtD lib u8 prec) v = t := by
    unfold stringifyD stringify at h1
    split at h1
    · split at h1
      · cases h1
      · cases h1; rfl
    · cases h1
  rw [e] at hc
  have hne : t ≠ [] := by
    intro e
    rw [e] at h2
    have : parse cfg [] = .err := by rfl
    rw [this] at h2; cases h2
  obtain ⟨out, d, e1, e2, e3⟩ := C50_end t hc.1 hc.2 hne rest
  exact ⟨t, out, d, v', h1, e1, e2, e3, h2, h3⟩

/-- A list with a thousandth; the library with exact functions meets the assumptions (C105). -/
example : AllDbl Normal (.arr [.num (.dbl ⟨false, 0, 1, 3, 0⟩), .str [0xC3, 0xA9]]) ∧
    Printable true (fmtD exactLib true 4) (blank (.arr [.num (.dbl ⟨false, 0, 1, 3, 0⟩), .str [0xC3, 0xA9]])) ∧
    Tripable {} (blank (.arr [.num (.dbl ⟨false, 0, 1, 3, 0⟩), .str [0xC3, 0xA9]])) ∧
    stringifyD exactLib true 4 (.arr [.num (.dbl ⟨false, 0, 1, 3, 0⟩), .str [0xC3, 0xA9]]) = .ok (ascii "[1e-3,\"" ++ [0xC3, 0xA9] ++ ascii "\"]") := by
  refine ⟨?_, ?_, ?_, by decide +kernel⟩
  · simp only [AllDbl, AllDblL, Normal, decQ]
    exact ⟨Or.inr ⟨by norm_num [abs_of_pos], by norm_num [abs_of_pos]⟩, trivial, trivial⟩
  · simp only [blank, mapD, mapDL, Printable, PrintableL, StrOk]
    exact ⟨trivial, ⟨.two (by decide) (by decide) .nil, .inl trivial⟩, trivial⟩
  · simp only [blank, mapD, mapDL, Tripable, TripableL]
    exact ⟨trivial, by decide, trivial⟩

/-! ## C144 -/

section
open Imt.Obj Imt.ObjB Imt.Rpc

theorem defd_mapD {g : Decimal → JV} (hg : ∀ d, defd (g d) = true) : ∀ v : JV, defd (mapD g v) = defd v
  | .undef => rfl
  | .null => rfl
  | .bool _ => rfl
  | .num (.uint _) => rfl
  | .num (.int _) => rfl
  | .num (.dbl d) => by rw [mapD, hg]; rfl
  | .num (.inf _) => rfl
  | .num (.prec _ _) => rfl
  | .str _ => rfl
  | .arr _ => rfl
  | .obj _ => rfl

theorem mapDM_map (g : Decimal → JV) : ∀ l : List (Bytes × JV), mapDM g l = l.map fun m => (m.1, mapD g m.2)
  | [] => rfl
  | (k, v) :: l => by rw [mapDM, List.map_cons, mapDM_map g l]

theorem lookup_mapV (h : JV → JV) (k : Bytes) : ∀ l : Members JV, lookup (l.map fun m => (m.1, h m.2)) k = (lookup l k).map h
  | [] => rfl
  | (k', v) :: l => by
    rw [List.map_cons, ObjB.lookup_cons, ObjB.lookup_cons, lookup_mapV h k l]
    dsimp only
    split <;> rfl

theorem lastVal_mapV (h : JV → JV) (k : Bytes) : ∀ l : Members JV, lastVal (l.map fun m => (m.1, h m.2)) k = (lastVal l k).map h
  | [] => rfl
  | (k', v) :: l => by
    rw [List.map_cons]
    simp only [lastVal]
    rw [lastVal_mapV h k l]
    cases lastVal l k with
    | some w => rfl
    | none => dsimp only [Option.map_none]; split <;> rfl

/-- An object of changed values. -/
theorem mapD_build {g : Decimal → JV} (hg : ∀ d, defd (g d) = true) (L : Members JV) :
    mapD g (build L) = build (L.map fun m => (m.1, mapD g m.2)) := by
  obtain ⟨hs, hl⟩ := build_spec L
  obtain ⟨hs', hl'⟩ := build_spec (L.map fun m => (m.1, mapD g m.2))
  unfold build
  rw [mapD]
  congr 1
  refine eq_of_lookup_eq (sorted_keys (mapDM_keys g _) hs) hs' fun k => ?_
  rw [mapDM_map, lookup_mapV, hl, hl', lastVal_mapV]
  cases lastVal L k with
  | none => rfl
  | some v =>
    simp only [Option.filter, Option.map_some, defd_mapD hg]
    cases defd v <;> rfl

/-- A message with doubles written (value.cpp:110-126 with `writeDouble`) in front of `rest` and read by the other side, as `Rpc.transfer`. -/
def transferD (lib : Lib) (prec : Nat) (cfg : Cfg) (rest : Bytes) (v : JV) : Res (JV × Bytes) :=
  do
    let t ← stringifyD lib true prec v
    parse cfg (t ++ rest)

theorem transferD_eq {lib : Lib} (hl : LgOk lib) (hp : Pow01Ok lib) (prec : Nat) (cfg : Cfg) (rest : Bytes) (v : JV) (hd : AllDbl Normal v) :
    transferD lib prec cfg rest v = transfer (fmtD lib true prec) cfg rest (mapD (asPrec (fmtD lib true prec)) v) := by
  unfold transferD transfer stringifyD
  rw [dblsOk_normal hl hp true prec v hd, if_pos rfl]
  unfold stringify
  rw [hasMin_mapD _ (fun d => rfl), ser_asPrec]

/-- Values with normal doubles, otherwise of the scope of C01. -/
def CarriedD (lib : Lib) (prec : Nat) (cfg : Cfg) (v : JV) : Prop :=
  AllDbl Normal v ∧ Printable true (fmtD lib true prec) (blank v) ∧ Tripable cfg (blank v)

/-- What arrives: an undefined member is left out, doubles arrive near to what they were, everything else as in C01. -/
def ArrivesD (lib : Lib) (prec : Nat) (cfg : Cfg) (v v' : JV) : Prop := if defd v then Tree (Near cfg lib prec) v v' else v' = .undef

theorem carriedD_prec {lib : Lib} (hl : LgOk lib) (hp : Pow01Ok lib) {prec : Nat} {cfg : Cfg} (htl : ∀ n < 2 ^ 64, cfg.tooLong n = false)
    {v : JV} (h : CarriedD lib prec cfg v) : Carried (fmtD lib true prec) cfg (mapD (asPrec (fmtD lib true prec)) v) :=
  ⟨printable_asPrec true cfg _ v (normal_tokOk hl hp true prec cfg htl h.1) h.2.1,
    tripable_asPrec cfg _ v (normal_tokOk hl hp true prec cfg htl h.1) h.2.2⟩

theorem asPrec_defd (f : Decimal → Bytes) (d : Decimal) : defd (asPrec f d) = true := rfl

theorem reads_near {lib : Lib} (hl : LgOk lib) (hp : Pow01Ok lib) {prec : Nat} {cfg : Cfg} (htl : ∀ n < 2 ^ 64, cfg.tooLong n = false)
    {v v' : JV} (h : AllDbl Normal v) (ha : Reads cfg (mapD (asPrec (fmtD lib true prec)) v) v') : Tree (Near cfg lib prec) v v' :=
  tree_near hl hp true prec cfg htl v v' h (tree_reads cfg _ v v' (normal_tokOk hl hp true prec cfg htl h) ha)

theorem arrives_near {lib : Lib} (hl : LgOk lib) (hp : Pow01Ok lib) {prec : Nat} {cfg : Cfg} (htl : ∀ n < 2 ^ 64, cfg.tooLong n = false)
    {v v' : JV} (h : defd v = true → CarriedD lib prec cfg v) (ha : Arrives cfg (mapD (asPrec (fmtD lib true prec)) v) v') : ArrivesD lib prec cfg v v' := by
  unfold Arrives at ha
  unfold ArrivesD
  rw [defd_mapD (asPrec_defd _)] at ha
  cases hd : defd v with
  | false => rw [hd] at ha; exact ha
  | true => rw [hd] at ha; exact reads_near hl hp htl (h hd).1 ha

theorem mapD_callMsg {g : Decimal → JV} (hg : ∀ d, defd (g d) = true) (v2 : Bool) (id : Nat) (n : Bytes) (args ctx : JV) :
    mapD g (callMsg v2 id n args ctx) = callMsg v2 id n (mapD g args) (mapD g ctx) := by
  unfold callMsg
  cases v2 <;> simp only [if_true, Bool.false_eq_true, if_false] <;> rw [mapD_build hg] <;> rfl

theorem mapD_resultMsg {g : Decimal → JV} (hg : ∀ d, defd (g d) = true) (v2 : Bool) (id : Nat) (v ctx : JV) :
    mapD g (resultMsg v2 (.num (.uint id)) v ctx) = resultMsg v2 (.num (.uint id)) (mapD g v) (mapD g ctx) := by
  unfold resultMsg
  cases v2 <;> simp only [if_true, Bool.false_eq_true, if_false] <;> rw [mapD_build hg] <;> rfl

theorem mapD_errorMsg {g : Decimal → JV} (hg : ∀ d, defd (g d) = true) (v2 : Bool) (id : Nat) (v : JV) :
    mapD g (errorMsg v2 (.num (.uint id)) v) = errorMsg v2 (.num (.uint id)) (mapD g v) := by
  unfold errorMsg
  cases v2 <;> simp only [if_true, Bool.false_eq_true, if_false] <;> rw [mapD_build hg] <;> rfl

theorem allDblM_of {P : Decimal → Prop} : ∀ {l : List (Bytes × JV)}, (∀ m ∈ l, AllDbl P m.2) → AllDblM P l
  | [], _ => trivial
  | (_, _) :: _, h => ⟨h _ List.mem_cons_self, allDblM_of fun m hm => h m (List.mem_cons_of_mem _ hm)⟩

theorem allDbl_build {P : Decimal → Prop} {L : Members JV} (h : ∀ m ∈ L, AllDbl P m.2) : AllDbl P (build L) := by
  obtain ⟨hs, hl⟩ := build_spec L
  unfold build
  rw [AllDbl]
  refine allDblM_of fun m hm => ?_
  have h1 := lookup_of_mem hs (k := m.1) (v := m.2) hm
  rw [hl] at h1
  cases hk : lastVal L m.1 with
  | none => rw [hk] at h1; cases h1
  | some v =>
    rw [hk] at h1
    cases hd : defd v with
    | false => simp [Option.filter, hd] at h1
    | true =>
      simp only [Option.filter, hd, if_true, Option.some.injEq] at h1
      rw [← h1]
      exact h _ (lastVal_mem hk)

theorem allDbl_opt {P : Decimal → Prop} {v : JV} (h : defd v = true → AllDbl P v) : AllDbl P v := by
  cases v <;> first | exact h rfl | trivial

theorem allDbl_callMsg {P : Decimal → Prop} (v2 : Bool) (id : Nat) (n : Bytes) {args ctx : JV} (h1 : AllDbl P args) (h2 : AllDbl P ctx) :
    AllDbl P (callMsg v2 id n args ctx) := by
  unfold callMsg
  cases v2 <;> simp only [if_true, Bool.false_eq_true, if_false] <;> refine allDbl_build ?_ <;> simp [h1, h2, AllDbl]

theorem allDbl_resultMsg {P : Decimal → Prop} (v2 : Bool) (id : Nat) {v ctx : JV} (h1 : AllDbl P v) (h2 : AllDbl P ctx) :
    AllDbl P (resultMsg v2 (.num (.uint id)) v ctx) := by
  unfold resultMsg
  cases v2 <;> simp only [if_true, Bool.false_eq_true, if_false] <;> refine allDbl_build ?_ <;> simp [h1, h2, AllDbl]

theorem allDbl_errorMsg {P : Decimal → Prop} (v2 : Bool) (id : Nat) {v : JV} (h1 : AllDbl P v) : AllDbl P (errorMsg v2 (.num (.uint id)) v) := by
  unfold errorMsg
  cases v2 <;> simp only [if_true, Bool.false_eq_true, if_false] <;> refine allDbl_build ?_ <;> simp [h1, AllDbl]

theorem tree_defd {R : JNum → JNum → Prop} {v v' : JV} (h : Tree R v v') : defd v' = true := by cases h <;> rfl
theorem tree_isNull {R : JNum → JNum → Prop} {v v' : JV} (h : Tree R v v') : isNull v' = isNull v := by cases h <;> rfl

/-- A result or error with normal doubles; results and errors as in C119. -/
def CarriedResD (lib : Lib) (prec : Nat) (cfg : Cfg) : (JV × JV) ⊕ JV → Prop
  | .inl x => CarriedD lib prec cfg x.1 ∧ (defd (ctxch x.2) = true → CarriedD lib prec cfg (ctxch x.2))
  | .inr e => CarriedD lib prec cfg e

/-- The outcome as it arrives. -/
def ResArrivesD (lib : Lib) (prec : Nat) (cfg : Cfg) : (JV × JV) ⊕ JV → Result → Prop
  | .inl x, r => Tree (Near cfg lib prec) x.1 r.value ∧ r.error = false
  | .inr e, r => Tree (Near cfg lib prec) e r.value ∧ r.error = true

/-- **C144, doubles** (partial: zero and normal doubles, no strings "∞"; results are defined, errors are defined and not null). As
`C144_call_partial` with doubles in the arguments, the context and the result: the method sees the arguments and the context with doubles near to
those of the caller and the caller gets the result or error of the method with doubles near to those the method has given. -/
theorem C144_doubles_partial {lib : Lib} (hl : LgOk lib) (hpw : Pow01Ok lib) (prec : Nat) (cfg : Cfg)
    (htl : ∀ n < 2 ^ 64, cfg.tooLong n = false) (hp : cfg.precise = false)
    (v2 : Bool) (cops : List COp) (hs : ∀ o ∈ cops, sends o = true) (c : Client) (hcl : crun { ver := some v2 } cops = .ok c)
    (id t : Nat) (hid : id < 2 ^ 64) (ht : (id, t) ∈ c.pend)
    (s : Server) (fl : Flags) (what : JV) (fuel : Nat) (ops : List RegOp) (hr : s.reg = regRun [] ops) (n : Bytes)
    (m : Parsed → (JV × JV) ⊕ JV) (hm : registered ops n = some (computes m)) (hn : CarriedD lib prec cfg (.str n)) (args ctx : JV)
    (ha : defd args = true → CarriedD lib prec cfg args) (hc : defd ctx = true → CarriedD lib prec cfg ctx) (hctx : ctx = .undef ∨ ∃ cx, ctx = .obj cx)
    (hres : ∀ p, Telling (m p) ∧ CarriedResD lib prec cfg (m p)) (rest rest' : Bytes) (h1 : StopNum rest) (h2 : StopNum rest') :
    ∃ req args' args'' ctx' r msg o o' res,
      transferD lib prec cfg rest (callMsg v2 id n args ctx) = .ok (req, rest) ∧ ArrivesD lib prec cfg args args' ∧ ArrivesD lib prec cfg ctx ctx' ∧
      ArgsOf fl.named args' args'' ∧
      serve s fl what takes (fuel + 2) req = some r ∧ r.out = [msg] ∧ respObj msg = some o ∧
      transferD lib prec cfg rest' o = .ok (o', rest') ∧
      ResArrivesD lib prec cfg (m ⟨.str n, args'', .num (.uint id), ctx', if v2 then .str (ascii "2.0") else .undef⟩) res ∧
      receive c o' = .ok { c with
        pend := c.pend.filter (fun e => e.1 != id)
        done := c.done ++ [(t, .answered id res)] } := by
  have hg := asPrec_defd (fmtD lib true prec)
  have opt : ∀ {v : JV}, (defd v = true → CarriedD lib prec cfg v) → CarriedOpt (fmtD lib true prec) cfg (mapD (asPrec (fmtD lib true prec)) v) :=
    fun h hd => carriedD_prec hl hpw htl (h (by rw [defd_mapD hg] at hd; exact hd))
  obtain ⟨args', ctx', e1, e2, e3⟩ := transfer_call (f := fmtD lib true prec) htl hp v2 hid (carriedD_prec hl hpw htl hn) (opt ha) (opt hc) h1
  rw [← mapD_callMsg hg, ← transferD_eq hl hpw prec cfg rest _
    (allDbl_callMsg v2 id n (allDbl_opt fun h => (ha h).1) (allDbl_opt fun h => (hc h).1))] at e1
  have e2 := arrives_near hl hpw htl ha e2
  have e3 := arrives_near hl hpw htl hc e3
  have hctx' : ctx' = .undef ∨ ∃ cx, ctx' = .obj cx := by
    unfold ArrivesD at e3
    rcases hctx with rfl | ⟨cx, rfl⟩
    · exact .inl e3
    · have e3 : Tree (Near cfg lib prec) (.obj cx) ctx' := e3
      cases e3
      exact .inr ⟨_, rfl⟩
  obtain ⟨r, e4, ho⟩ := serve_computes s fl what fuel ops hr n m hm v2 id args' _ ctx' (argsOf_norm fl.named args') hctx'
  have hq := hres ⟨.str n, normParams fl.named args', .num (.uint id), ctx', if v2 then .str (ascii "2.0") else .undef⟩
  revert ho hq
  cases hmp : m ⟨.str n, normParams fl.named args', .num (.uint id), ctx', if v2 then .str (ascii "2.0") else .undef⟩ with
  | inl x =>
    intro ho hq
    obtain ⟨v', c', e5, e6, _⟩ := transfer_result (f := fmtD lib true prec) htl hp v2 hid (opt fun _ => hq.2.1) (opt hq.2.2) h2
    rw [← mapD_resultMsg hg, ← transferD_eq hl hpw prec cfg rest' _ (allDbl_resultMsg v2 id hq.2.1.1 (allDbl_opt fun h => (hq.2.2 h).1))] at e5
    have e6 : Tree (Near cfg lib prec) x.1 v' := by
      have := arrives_near hl hpw htl (fun _ => hq.2.1) e6
      unfold ArrivesD at this
      rw [show defd x.1 = true from hq.1] at this
      exact this
    have hcls := (C86_understood_partial v2 (.num (.uint id)) rfl v' c' (tree_defd e6)).1
    exact ⟨_, args', _, ctx', r, _, _, _, ⟨v', false⟩, e1, e2, e3, argsOf_norm _ _, e4, ho, rfl, e5, by rw [hmp]; exact ⟨e6, rfl⟩,
      by rw [receive_of hcls]; exact (C60_response v2 cops hs c hcl id _).1 t ht⟩
  | inr y =>
    intro ho hq
    obtain ⟨v', e5, e6⟩ := transfer_error (f := fmtD lib true prec) htl hp v2 hid (opt fun _ => hq.2) h2
    rw [← mapD_errorMsg hg, ← transferD_eq hl hpw prec cfg rest' _ (allDbl_errorMsg v2 id hq.2.1)] at e5
    have e6 : Tree (Near cfg lib prec) y v' := by
      have := arrives_near hl hpw htl (fun _ => hq.2) e6
      unfold ArrivesD at this
      rw [show defd y = true from hq.1.1] at this
      exact this
    have hcls := (C86_understood_partial v2 (.num (.uint id)) rfl v' .undef (tree_defd e6)).2 (by rw [tree_isNull e6]; exact hq.1.2)
    exact ⟨_, args', _, ctx', r, _, _, _, ⟨v', true⟩, e1, e2, e3, argsOf_norm _ _, e4, ho, rfl, e5, by rw [hmp]; exact ⟨e6, rfl⟩,
      by rw [receive_of hcls]; exact (C60_response v2 cops hs c hcl id _).1 t ht⟩

/-- Arguments with a double, and the message they are sent in. -/
example : CarriedD exactLib 4 {} (.arr [.num (.dbl ⟨false, 0, 1, 3, 0⟩)]) ∧ CarriedD exactLib 4 {} (.str (ascii "m")) ∧
    transferD exactLib 4 {} [] (callMsg true 1 (ascii "m") (.arr [.num (.dbl ⟨false, 0, 1, 3, 0⟩)]) .undef) =
      .ok (callMsg true 1 (ascii "m") (.arr [.num (.dbl ⟨false, 1, 0, 0, -3⟩)]) .undef, []) := by
  refine ⟨⟨?_, ?_, ?_⟩, ⟨?_, ?_, ?_⟩, by decide +kernel⟩
  · simp only [AllDbl, AllDblL, Normal, decQ]
    exact ⟨Or.inr ⟨by norm_num [abs_of_pos], by norm_num [abs_of_pos]⟩, trivial⟩
  · simp [blank, mapD, mapDL, Printable, PrintableL]
  · simp [blank, mapD, mapDL, Tripable, TripableL]
  · trivial
  · simp only [blank, mapD, Printable]; exact strOk_ascii _ (by decide)
  · simp only [blank, mapD, Tripable]; decide
end

end Imt.Props
