import Verif.Props.WriteDouble
import Verif.Props.Serializer
import Verif.Lemmas.TokInj
import Verif.Spec.Tree
/-!
# Trees with doubles: C01, C02, C03, C04
-/
set_option exponentiation.threshold 3000
namespace Imt.Props
open Imt Imt.Spec Imt.Fp Imt.Ser Imt.Parser
open Imt.Conv (Dbl)

/-! ## Doubles as texts -/

/-- The precise number with the text of a double. -/
def asPrec (f : Decimal → Bytes) (d : Decimal) : JV := .num (.prec (f d) .dbl)

theorem mapDM_keys (g : Decimal → JV) : ∀ l : List (Bytes × JV), (mapDM g l).map (·.1) = l.map (·.1)
  | [] => rfl
  | (k, v) :: l => by rw [mapDM, List.map_cons, List.map_cons, mapDM_keys g l]

mutual
theorem ser_asPrec (u8 : Bool) (f : Decimal → Bytes) : ∀ v : JV, ser u8 f (mapD (asPrec f) v) = ser u8 f v
  | .undef => rfl
  | .null => rfl
  | .bool _ => rfl
  | .num (.uint _) => rfl
  | .num (.int _) => rfl
  | .num (.dbl d) => by rw [mapD, asPrec, ser, ser, writeNum, writeNum]
  | .num (.inf _) => rfl
  | .num (.prec _ _) => rfl
  | .str _ => rfl
  | .arr l => by rw [mapD, ser, ser, serItems_asPrec u8 f l]
  | .obj l => by rw [mapD, ser, ser, serMembers_asPrec u8 f l]
theorem serItems_asPrec (u8 : Bool) (f : Decimal → Bytes) : ∀ l : List JV, serItems u8 f (mapDL (asPrec f) l) = serItems u8 f l
  | [] => rfl
  | [v] => by rw [mapDL, mapDL, serItems, serItems, ser_asPrec u8 f v]
  | v :: w :: l => by
    have := serItems_asPrec u8 f (w :: l)
    rw [mapDL] at this
    rw [mapDL, mapDL, serItems, serItems, ser_asPrec u8 f v, this]
theorem serMembers_asPrec (u8 : Bool) (f : Decimal → Bytes) : ∀ l : List (Bytes × JV), serMembers u8 f (mapDM (asPrec f) l) = serMembers u8 f l
  | [] => rfl
  | [(k, v)] => by rw [mapDM, mapDM, serMembers, serMembers, ser_asPrec u8 f v]
  | (k, v) :: (k', w) :: l => by
    have := serMembers_asPrec u8 f ((k', w) :: l)
    rw [mapDM] at this
    rw [mapDM, mapDM, serMembers, serMembers, ser_asPrec u8 f v, this]
end

mutual
theorem hasMin_mapD (g : Decimal → JV) (hg : ∀ d, hasMin (g d) = false) : ∀ v : JV, hasMin (mapD g v) = hasMin v
  | .undef => rfl
  | .null => rfl
  | .bool _ => rfl
  | .num (.uint _) => rfl
  | .num (.int _) => rfl
  | .num (.dbl d) => by rw [mapD, hg]; rfl
  | .num (.inf _) => rfl
  | .num (.prec _ _) => rfl
  | .str _ => rfl
  | .arr l => by rw [mapD, hasMin, hasMin, hasMinL_mapD g hg l]
  | .obj l => by rw [mapD, hasMin, hasMin, hasMinM_mapD g hg l]
theorem hasMinL_mapD (g : Decimal → JV) (hg : ∀ d, hasMin (g d) = false) : ∀ l : List JV, hasMinL (mapDL g l) = hasMinL l
  | [] => rfl
  | v :: l => by rw [mapDL, hasMinL, hasMinL, hasMin_mapD g hg v, hasMinL_mapD g hg l]
theorem hasMinM_mapD (g : Decimal → JV) (hg : ∀ d, hasMin (g d) = false) : ∀ l : List (Bytes × JV), hasMinM (mapDM g l) = hasMinM l
  | [] => rfl
  | (k, v) :: l => by rw [mapDM, hasMinM, hasMinM, hasMin_mapD g hg v, hasMinM_mapD g hg l]
end

/-- What is needed of a double: its text is a token within the limits of the reader. -/
def TokOk (cfg : Cfg) (f : Decimal → Bytes) (d : Decimal) : Prop := ∃ t : NumTok, t.WF ∧ t.text = f d ∧ NumFits cfg t

mutual
theorem printable_asPrec (u8 : Bool) (cfg : Cfg) (f : Decimal → Bytes) : ∀ v : JV, AllDbl (TokOk cfg f) v → Printable u8 f (blank v) →
    Printable u8 f (mapD (asPrec f) v)
  | .undef, _, h => h
  | .null, _, h => h
  | .bool _, _, h => h
  | .num (.uint _), _, h => h
  | .num (.int _), _, h => h
  | .num (.dbl d), h, _ => by
    rw [AllDbl] at h
    obtain ⟨t, h1, h2, -⟩ := h
    rw [mapD, asPrec, Printable]
    exact ⟨t, h1, h2⟩
  | .num (.inf _), _, h => h
  | .num (.prec _ _), _, h => h
  | .str _, _, h => h
  | .arr l, h, h' => by
    rw [AllDbl] at h
    rw [blank, mapD, Printable] at h'
    rw [mapD, Printable]
    exact printableL_asPrec u8 cfg f l h h'
  | .obj l, h, h' => by
    rw [AllDbl] at h
    rw [blank, mapD, Printable] at h'
    rw [mapD, Printable]
    exact printableM_asPrec u8 cfg f l h h'
theorem printableL_asPrec (u8 : Bool) (cfg : Cfg) (f : Decimal → Bytes) : ∀ l : List JV, AllDblL (TokOk cfg f) l →
    PrintableL u8 f (mapDL (fun _ => .null) l) → PrintableL u8 f (mapDL (asPrec f) l)
  | [], _, _ => by rw [mapDL, PrintableL]; trivial
  | v :: l, h, h' => by
    rw [AllDblL] at h
    rw [mapDL, PrintableL] at h'
    rw [mapDL, PrintableL]
    exact ⟨printable_asPrec u8 cfg f v h.1 h'.1, printableL_asPrec u8 cfg f l h.2 h'.2⟩
theorem printableM_asPrec (u8 : Bool) (cfg : Cfg) (f : Decimal → Bytes) : ∀ l : List (Bytes × JV), AllDblM (TokOk cfg f) l →
    PrintableM u8 f (mapDM (fun _ => .null) l) → PrintableM u8 f (mapDM (asPrec f) l)
  | [], _, _ => by rw [mapDM, PrintableM]; trivial
  | (k, v) :: l, h, h' => by
    rw [AllDblM] at h
    rw [mapDM, PrintableM] at h'
    rw [mapDM, PrintableM]
    exact ⟨h'.1, printable_asPrec u8 cfg f v h.1 h'.2.1, printableM_asPrec u8 cfg f l h.2 h'.2.2⟩
end

mutual
theorem printable_self (u8 : Bool) (cfg : Cfg) (f : Decimal → Bytes) : ∀ v : JV, AllDbl (TokOk cfg f) v → Printable u8 f (blank v) →
    Printable u8 f v
  | .undef, _, h => h
  | .null, _, h => h
  | .bool _, _, h => h
  | .num (.uint _), _, h => h
  | .num (.int _), _, h => h
  | .num (.dbl d), h, _ => by
    rw [AllDbl] at h
    obtain ⟨t, h1, h2, -⟩ := h
    rw [Printable]
    exact ⟨t, h1, h2⟩
  | .num (.inf _), _, h => h
  | .num (.prec _ _), _, h => h
  | .str _, _, h => h
  | .arr l, h, h' => by
    rw [AllDbl] at h
    rw [blank, mapD, Printable] at h'
    rw [Printable]
    exact printableL_self u8 cfg f l h h'
  | .obj l, h, h' => by
    rw [AllDbl] at h
    rw [blank, mapD, Printable] at h'
    rw [Printable]
    exact printableM_self u8 cfg f l h h'
theorem printableL_self (u8 : Bool) (cfg : Cfg) (f : Decimal → Bytes) : ∀ l : List JV, AllDblL (TokOk cfg f) l →
    PrintableL u8 f (mapDL (fun _ => .null) l) → PrintableL u8 f l
  | [], _, _ => by rw [PrintableL]; trivial
  | v :: l, h, h' => by
    rw [AllDblL] at h
    rw [mapDL, PrintableL] at h'
    rw [PrintableL]
    exact ⟨printable_self u8 cfg f v h.1 h'.1, printableL_self u8 cfg f l h.2 h'.2⟩
theorem printableM_self (u8 : Bool) (cfg : Cfg) (f : Decimal → Bytes) : ∀ l : List (Bytes × JV), AllDblM (TokOk cfg f) l →
    PrintableM u8 f (mapDM (fun _ => .null) l) → PrintableM u8 f l
  | [], _, _ => by rw [PrintableM]; trivial
  | (k, v) :: l, h, h' => by
    rw [AllDblM] at h
    rw [mapDM, PrintableM] at h'
    rw [PrintableM]
    exact ⟨h'.1, printable_self u8 cfg f v h.1 h'.2.1, printableM_self u8 cfg f l h.2 h'.2.2⟩
end

mutual
theorem tripable_asPrec (cfg : Cfg) (f : Decimal → Bytes) : ∀ v : JV, AllDbl (TokOk cfg f) v → Tripable cfg (blank v) →
    Tripable cfg (mapD (asPrec f) v)
  | .undef, _, h => h
  | .null, _, h => h
  | .bool _, _, h => h
  | .num (.uint _), _, h => h
  | .num (.int _), _, h => h
  | .num (.dbl d), h, _ => by
    rw [AllDbl] at h
    obtain ⟨t, h1, h2, h3⟩ := h
    rw [mapD, asPrec, Tripable]
    intro _ t' w' e'
    rw [text_inj w' h1 (e'.trans h2.symm)]
    exact h3
  | .num (.inf _), _, h => h
  | .num (.prec _ _), _, h => h
  | .str _, _, h => h
  | .arr l, h, h' => by
    rw [AllDbl] at h
    rw [blank, mapD, Tripable] at h'
    rw [mapD, Tripable]
    exact tripableL_asPrec cfg f l h h'
  | .obj l, h, h' => by
    rw [AllDbl] at h
    rw [blank, mapD, Tripable] at h'
    rw [mapD, Tripable]
    exact ⟨Trip.strictSorted_keys (by rw [mapDM_keys, mapDM_keys]) h'.1, tripableM_asPrec cfg f l h h'.2⟩
theorem tripableL_asPrec (cfg : Cfg) (f : Decimal → Bytes) : ∀ l : List JV, AllDblL (TokOk cfg f) l →
    TripableL cfg (mapDL (fun _ => .null) l) → TripableL cfg (mapDL (asPrec f) l)
  | [], _, _ => by rw [mapDL, TripableL]; trivial
  | v :: l, h, h' => by
    rw [AllDblL] at h
    rw [mapDL, TripableL] at h'
    rw [mapDL, TripableL]
    exact ⟨tripable_asPrec cfg f v h.1 h'.1, tripableL_asPrec cfg f l h.2 h'.2⟩
theorem tripableM_asPrec (cfg : Cfg) (f : Decimal → Bytes) : ∀ l : List (Bytes × JV), AllDblM (TokOk cfg f) l →
    TripableM cfg (mapDM (fun _ => .null) l) → TripableM cfg (mapDM (asPrec f) l)
  | [], _, _ => by rw [mapDM, TripableM]; trivial
  | (k, v) :: l, h, h' => by
    rw [AllDblM] at h
    rw [mapDM, TripableM] at h'
    rw [mapDM, TripableM]
    exact ⟨tripable_asPrec cfg f v h.1 h'.1, tripableM_asPrec cfg f l h.2 h'.2⟩
end

/-- How numbers come back: a double as the number its text denotes, others as `Reads` says. -/
def NumBack (cfg : Cfg) (f : Decimal → Bytes) : JNum → JNum → Prop
  | .dbl d, m => ∃ t : NumTok, t.WF ∧ t.text = f d ∧ (cfg.precise = false → m = interpNum t) ∧ (cfg.precise = true → ∃ c, m = .prec t.text c)
  | n, m => Reads cfg (.num n) (.num m)

mutual
theorem tree_reads (cfg : Cfg) (f : Decimal → Bytes) : ∀ (v w : JV), AllDbl (TokOk cfg f) v → Reads cfg (mapD (asPrec f) v) w → Tree (NumBack cfg f) v w
  | .undef, w, _, h => by change Reads cfg .undef w at h; cases h; exact .undef
  | .null, w, _, h => by change Reads cfg .null w at h; cases h; exact .null
  | .bool b, w, _, h => by change Reads cfg (.bool b) w at h; cases h; exact .bool
  | .num (.uint n), w, _, h => by
    change Reads cfg (.num (.uint n)) w at h
    have h' := h
    cases h <;> exact .num h'
  | .num (.int n), w, _, h => by
    change Reads cfg (.num (.int n)) w at h
    have h' := h
    cases h <;> exact .num h'
  | .num (.dbl d), w, ha, h => by
    rw [AllDbl] at ha
    obtain ⟨t, h1, h2, h3⟩ := ha
    rw [mapD, asPrec] at h
    cases h with
    | prec hp hw he =>
      rw [text_inj hw h1 (he.trans h2.symm)]
      exact .num ⟨t, h1, h2, fun _ => rfl, fun h => (by rw [hp] at h; cases h)⟩
    | precP hp => exact .num ⟨t, h1, h2, fun h => (by rw [hp] at h; cases h), fun _ => ⟨_, by rw [h2]⟩⟩
  | .num (.inf i), w, _, h => by
    change Reads cfg (.num (.inf i)) w at h
    have h' := h
    cases h; exact .num h'
  | .num (.prec x c), w, _, h => by
    change Reads cfg (.num (.prec x c)) w at h
    have h' := h
    cases h <;> exact .num h'
  | .str s, w, _, h => by change Reads cfg (.str s) w at h; cases h; exact .str
  | .arr l, w, ha, h => by
    rw [AllDbl] at ha
    rw [mapD] at h
    cases h with
    | arr h => exact .arr (tree_readsL cfg f l _ ha h)
  | .obj l, w, ha, h => by
    rw [AllDbl] at ha
    rw [mapD] at h
    cases h with
    | obj h => exact .obj (tree_readsM cfg f l _ ha h)
theorem tree_readsL (cfg : Cfg) (f : Decimal → Bytes) : ∀ (l w : List JV), AllDblL (TokOk cfg f) l → ReadsL cfg (mapDL (asPrec f) l) w → TreeL (NumBack cfg f) l w
  | [], w, _, h => by rw [mapDL] at h; cases h; exact .nil
  | v :: l, w, ha, h => by
    rw [AllDblL] at ha
    rw [mapDL] at h
    cases h with
    | cons h1 h2 => exact .cons (tree_reads cfg f v _ ha.1 h1) (tree_readsL cfg f l _ ha.2 h2)
theorem tree_readsM (cfg : Cfg) (f : Decimal → Bytes) : ∀ (l w : List (Bytes × JV)), AllDblM (TokOk cfg f) l → ReadsM cfg (mapDM (asPrec f) l) w → TreeM (NumBack cfg f) l w
  | [], w, _, h => by rw [mapDM] at h; cases h; exact .nil
  | (k, v) :: l, w, ha, h => by
    rw [AllDblM] at ha
    rw [mapDM] at h
    cases h with
    | cons h1 h2 => exact .cons (tree_reads cfg f v _ ha.1 h1) (tree_readsM cfg f l _ ha.2 h2)
end

/-- Round trip of a tree with doubles that are printed as tokens. -/
theorem trip_dbl (u8 : Bool) (f : Decimal → Bytes) (cfg : Cfg) (htl : ∀ n < 2 ^ 64, cfg.tooLong n = false) (v : JV)
    (hd : AllDbl (TokOk cfg f) v) (h : Printable u8 f (blank v)) (ht : Tripable cfg (blank v)) (rest : Bytes) (hr : StopNum rest) :
    ∃ t v', stringify u8 f v = .ok t ∧ parse cfg (t ++ rest) = .ok (v', rest) ∧ Tree (NumBack cfg f) v v' := by
  have h1 := printable_asPrec u8 cfg f v hd h
  have h2 := tripable_asPrec cfg f v hd ht
  obtain ⟨v', h3, h4⟩ := Trip.trip u8 f cfg htl _ h1 h2 [] rest ws_nil hr
  rw [ser_asPrec] at h3
  have h5 := tripable_noMin cfg _ h2
  rw [hasMin_mapD _ (fun d => rfl)] at h5
  exact ⟨_, v', by rw [stringify, h5]; rfl, h3, tree_reads cfg f v v' hd h4⟩


/-! ## Printed doubles are tokens within the limits -/

theorem decQ_value (t : NumTok) : decQ t.value = (if t.neg then -1 else 1) * mag t := rfl

theorem mag_nonneg (t : NumTok) : 0 ≤ mag t := by unfold mag; positivity

theorem numOf_interp (t : NumTok) : NumOf (interpNum t) (decQ t.value) := by
  unfold interpNum
  split
  · next h =>
    obtain ⟨h1, h2⟩ := h
    have hm : mag t = decVal t.int := by unfold mag; rw [h1, h2]; simp [decVal, expVal]
    rw [decQ_value, hm]
    unfold interpInt
    cases t.neg
    · rw [if_neg Bool.false_ne_true, if_neg Bool.false_ne_true, one_mul]
      split
      · exact .uint
      · have := NumOf.dbl (d := ⟨false, decVal t.int, 0, 0, 0⟩)
        unfold decQ at this
        simpa using this
    · rw [if_pos rfl, if_pos rfl]
      split
      · next h0 => rw [h0]; have := NumOf.uint (n := 0); simpa using this
      · split
        · have := NumOf.int (i := -(decVal t.int : Int)); simpa using this
        · have := NumOf.dbl (d := ⟨true, decVal t.int, 0, 0, 0⟩)
          unfold decQ at this
          simpa using this
  · exact .dbl

/-- Limits of the token of a printed number. -/
theorem printed_fits {lib : Lib} (hl : LgOk lib) (hp : Pow01Ok lib) (u : Bool) (prec : Nat) (q : ℚ) (h0 : 1 / 2 ^ 1022 ≤ |q|)
    (h1 : |q| < 2 ^ 1024) (tok : NumTok) (hw : tok.WF) (h : writeDouble lib u prec (.fin q) = .ok tok.text) :
    decVal tok.int < 2 ^ 64 ∧ ExpFits tok.exp := by
  have hq : q ≠ 0 := by
    intro h; rw [h, abs_zero] at h0
    have : (0 : ℚ) < 1 / 2 ^ 1022 := by positivity
    linarith
  have hb : ∀ x, (scale lib |q|).2 = .fin x → x < 2 ^ 60 := by
    intro x hx
    rcases scaled hl hp (normal_ge h0) h1 with ⟨-, e1, e2⟩ | ⟨-, y, e1, -, e3, -⟩
    · rw [e1] at hx
      cases hx
      exact lt_trans e2 (by norm_num)
    · rw [e1] at hx
      cases hx
      exact lt_of_le_of_lt e3 (by norm_num)
  have he : ((scale lib |q|).1).natAbs ≤ 308 := by
    have := lg_range hl (normal_ge h0) h1
    unfold scale
    split
    · simp
    · dsimp only; omega
  rcases writeDouble_fin lib u prec q hq with ⟨x, M, s1, s2, s3, s4, s5, s6⟩ | ⟨s1, -⟩
  · have hx := hb x s1
    have hfl : ⌊x⌋.toNat < 2 ^ 60 := by
      have : ⌊x⌋ < 2 ^ 60 := Int.floor_lt.2 (by push_cast; exact hx)
      omega
    obtain ⟨o1, o2, -⟩ := outTok_spec (decide (q < 0)) (min prec 9) (carry (min prec 9) ⌊x⌋.toNat M (scale lib |q|).1).1
        (carry (min prec 9) ⌊x⌋.toNat M (scale lib |q|).1).2.1 (carry (min prec 9) ⌊x⌋.toNat M (scale lib |q|).1).2.2
        (carry_lt _ _ _ _ s4)
    rw [h] at s6
    have e6 := Res.ok.inj s6
    have : tok = _ := text_inj hw o1 (by rw [o2, e6]; simp)
    have hc : (carry (min prec 9) ⌊x⌋.toNat M (scale lib |q|).1).1 < 2 ^ 61 ∧
        (carry (min prec 9) ⌊x⌋.toNat M (scale lib |q|).1).2.2.natAbs ≤ 309 := by
      unfold carry
      split_ifs <;> dsimp only <;> omega
    rw [this]
    refine ⟨?_, ?_⟩
    · unfold outTok
      dsimp only
      rw [(writeUnsigned_spec _).2.1]
      exact lt_trans hc.1 (by norm_num)
    · intro y hy
      unfold outTok at hy
      dsimp only at hy
      split at hy
      · cases hy
      · cases hy
        dsimp only
        rw [(writeUnsigned_spec _).2.1]
        exact lt_of_le_of_lt hc.2 (by norm_num)
  · rw [h] at s1; cases s1

theorem fmtD_ok {lib : Lib} {u : Bool} {prec : Nat} {d : Decimal} {t : Bytes} (h : writeDouble lib u prec (.fin (decQ d)) = .ok t) :
    fmtD lib u prec d = t := by unfold fmtD; rw [h]

/-- The token of a printed double, its limits and its accuracy. -/
theorem normal_tok {lib : Lib} (hl : LgOk lib) (hp : Pow01Ok lib) (u : Bool) (prec : Nat) (cfg : Cfg)
    (htl : ∀ n < 2 ^ 64, cfg.tooLong n = false) (d : Decimal) (h : Normal d) : ∃ t : NumTok, t.WF ∧
      writeDouble lib u prec (.fin (decQ d)) = .ok t.text ∧ NumFits cfg t ∧ |decQ t.value - decQ d| ≤ err lib prec (decQ d) ∧
      (decQ d < 0 → decQ t.value ≤ 0) ∧ (0 ≤ decQ d → 0 ≤ decQ t.value) := by
  rcases h with h | ⟨h0, h1⟩
  · refine ⟨⟨false, [48], none, none⟩, ⟨⟨⟨by simp, by decide⟩, fun _ => rfl⟩, by simp, by simp⟩, ?_,
      ⟨htl _ (by decide), by intro x hx; cases hx⟩, ?_, ?_, ?_⟩
    · rw [h]; unfold writeDouble; dsimp only; rw [if_pos rfl]; rfl
    all_goals
      rw [decQ_value]
      unfold mag
      simp [h, decVal, err]
  · have hq : decQ d ≠ 0 := by
      intro h; rw [h, abs_zero] at h0
      have : (0 : ℚ) < 1 / 2 ^ 1022 := by positivity
      linarith
    have key : ∃ tok : NumTok, tok.WF ∧ writeDouble lib u prec (.fin (decQ d)) = .ok tok.text ∧ (tok.neg = true ↔ decQ d < 0) ∧
        |mag tok - (|decQ d|)| ≤ err lib prec (decQ d) := by
      unfold err
      rw [if_neg hq]
      by_cases hr : -3 < lib.lg |decQ d| ∧ lib.lg |decQ d| < 8
      · obtain ⟨tok, a1, a2, a3, -, -, a6⟩ := C107_fixed hl hp u prec (decQ d) h0 h1 hr
        rw [if_pos hr]
        exact ⟨tok, a1, a2, a3, a6⟩
      · obtain ⟨tok, a1, a2, a3, a4⟩ := C107_scientific hl hp u prec (decQ d) h0 h1 hr
        rw [if_neg hr]
        exact ⟨tok, a1, a2, a3, a4⟩
    obtain ⟨tok, a1, a2, a3, a4⟩ := key
    obtain ⟨f1, f2⟩ := printed_fits hl hp u prec (decQ d) h0 h1 tok a1 a2
    have hm := mag_nonneg tok
    refine ⟨tok, a1, a2, ⟨htl _ f1, f2⟩, ?_, ?_, ?_⟩
    · rw [decQ_value]
      by_cases hn : decQ d < 0
      · rw [a3.2 hn, if_pos rfl]
        rw [abs_of_neg hn] at a4
        rw [show -1 * mag tok - decQ d = -(mag tok - -decQ d) by ring, abs_neg]
        exact a4
      · have : tok.neg = false := by
          cases ht : tok.neg
          · rfl
          · exact absurd (a3.1 ht) hn
        rw [this, if_neg (by simp), one_mul]
        rw [abs_of_nonneg (not_lt.1 hn)] at a4
        exact a4
    · intro hn
      rw [decQ_value, a3.2 hn, if_pos rfl]
      linarith
    · intro hn
      have : tok.neg = false := by
        cases ht : tok.neg
        · rfl
        · exact absurd (a3.1 ht) (not_lt.2 hn)
      rw [decQ_value, this, if_neg (by simp), one_mul]
      exact hm

mutual
theorem allDbl_mono {P Q : Decimal → Prop} (h : ∀ d, P d → Q d) : ∀ v : JV, AllDbl P v → AllDbl Q v
  | .undef, _ => trivial
  | .null, _ => trivial
  | .bool _, _ => trivial
  | .num (.uint _), _ => trivial
  | .num (.int _), _ => trivial
  | .num (.dbl d), hp => h d hp
  | .num (.inf _), _ => trivial
  | .num (.prec _ _), _ => trivial
  | .str _, _ => trivial
  | .arr l, hp => allDblL_mono h l hp
  | .obj l, hp => allDblM_mono h l hp
theorem allDblL_mono {P Q : Decimal → Prop} (h : ∀ d, P d → Q d) : ∀ l : List JV, AllDblL P l → AllDblL Q l
  | [], _ => trivial
  | v :: l, hp => ⟨allDbl_mono h v hp.1, allDblL_mono h l hp.2⟩
theorem allDblM_mono {P Q : Decimal → Prop} (h : ∀ d, P d → Q d) : ∀ l : List (Bytes × JV), AllDblM P l → AllDblM Q l
  | [], _ => trivial
  | (_, v) :: l, hp => ⟨allDbl_mono h v hp.1, allDblM_mono h l hp.2⟩
end

mutual
theorem dblsOk_of (lib : Lib) (u : Bool) (prec : Nat) : ∀ v : JV,
    AllDbl (fun d => ∃ t, writeDouble lib u prec (.fin (decQ d)) = .ok t) v → dblsOk lib u prec v = true
  | .undef, _ => rfl
  | .null, _ => rfl
  | .bool _, _ => rfl
  | .num (.uint _), _ => rfl
  | .num (.int _), _ => rfl
  | .num (.dbl d), hp => by
    rw [AllDbl] at hp
    obtain ⟨t, ht⟩ := hp
    rw [dblsOk, ht]
  | .num (.inf _), _ => rfl
  | .num (.prec _ _), _ => rfl
  | .str _, _ => rfl
  | .arr l, hp => by
    rw [AllDbl] at hp
    rw [dblsOk]
    exact dblsOkL_of lib u prec l hp
  | .obj l, hp => by
    rw [AllDbl] at hp
    rw [dblsOk]
    exact dblsOkM_of lib u prec l hp
theorem dblsOkL_of (lib : Lib) (u : Bool) (prec : Nat) : ∀ l : List JV,
    AllDblL (fun d => ∃ t, writeDouble lib u prec (.fin (decQ d)) = .ok t) l → dblsOkL lib u prec l = true
  | [], _ => rfl
  | v :: l, hp => by
    rw [AllDblL] at hp
    rw [dblsOkL, dblsOk_of lib u prec v hp.1, dblsOkL_of lib u prec l hp.2]; rfl
theorem dblsOkM_of (lib : Lib) (u : Bool) (prec : Nat) : ∀ l : List (Bytes × JV),
    AllDblM (fun d => ∃ t, writeDouble lib u prec (.fin (decQ d)) = .ok t) l → dblsOkM lib u prec l = true
  | [], _ => rfl
  | (_, v) :: l, hp => by
    rw [AllDblM] at hp
    rw [dblsOkM, dblsOk_of lib u prec v hp.1, dblsOkM_of lib u prec l hp.2]; rfl
end

mutual
theorem tree_mono {R S : JNum → JNum → Prop} {P : Decimal → Prop} (h : ∀ n m, AllDbl P (.num n) → R n m → S n m) :
    ∀ v w : JV, AllDbl P v → Tree R v w → Tree S v w
  | .undef, _, _, ht => by cases ht; exact .undef
  | .null, _, _, ht => by cases ht; exact .null
  | .bool _, _, _, ht => by cases ht; exact .bool
  | .num n, _, ha, ht => by
    cases ht with
    | num hr => exact .num (h _ _ ha hr)
  | .str _, _, _, ht => by cases ht; exact .str
  | .arr l, _, ha, ht => by
    cases ht with
    | arr hr => exact .arr (treeL_mono h l _ ha hr)
  | .obj l, _, ha, ht => by
    cases ht with
    | obj hr => exact .obj (treeM_mono h l _ ha hr)
theorem treeL_mono {R S : JNum → JNum → Prop} {P : Decimal → Prop} (h : ∀ n m, AllDbl P (.num n) → R n m → S n m) :
    ∀ l w : List JV, AllDblL P l → TreeL R l w → TreeL S l w
  | [], _, _, ht => by cases ht; exact .nil
  | v :: l, _, ha, ht => by
    cases ht with
    | cons h1 h2 => exact .cons (tree_mono h v _ ha.1 h1) (treeL_mono h l _ ha.2 h2)
theorem treeM_mono {R S : JNum → JNum → Prop} {P : Decimal → Prop} (h : ∀ n m, AllDbl P (.num n) → R n m → S n m) :
    ∀ l w : List (Bytes × JV), AllDblM P l → TreeM R l w → TreeM S l w
  | [], _, _, ht => by cases ht; exact .nil
  | (_, v) :: l, _, ha, ht => by
    cases ht with
    | cons h1 h2 => exact .cons (tree_mono h v _ ha.1 h1) (treeM_mono h l _ ha.2 h2)
end

theorem dblsOk_normal {lib : Lib} (hl : LgOk lib) (hp : Pow01Ok lib) (u : Bool) (prec : Nat) (v : JV) (hd : AllDbl Normal v) : dblsOk lib u prec v = true :=
  dblsOk_of lib u prec v (allDbl_mono (fun d hn => by obtain ⟨t, a1, a2, -⟩ := normal_tok hl hp u prec {} (fun _ _ => rfl) d hn; exact ⟨_, a2⟩) v hd)

/-- Numbers read from the texts of doubles are near to them. -/
theorem tree_near {lib : Lib} (hl : LgOk lib) (hp : Pow01Ok lib) (u : Bool) (prec : Nat) (cfg : Cfg)
    (htl : ∀ n < 2 ^ 64, cfg.tooLong n = false) (v v' : JV) (hd : AllDbl Normal v) (h : Tree (NumBack cfg (fmtD lib u prec)) v v') :
    Tree (Near cfg lib prec) v v' := by
  have hk := normal_tok hl hp u prec cfg htl
  refine tree_mono (P := Normal) ?_ v v' hd h
  intro n m ha hb
  cases n with
  | dbl d =>
    rw [AllDbl] at ha
    obtain ⟨t, a1, a2, a3, a4, a5, a6⟩ := hk d ha
    obtain ⟨t', b1, b2, b3, b4⟩ := hb
    have : t' = t := text_inj b1 a1 (by rw [b2, fmtD_ok a2])
    subst this
    refine ⟨decQ t'.value, ?_, a4, a5, a6⟩
    cases hc : cfg.precise
    · rw [b3 hc]; exact numOf_interp t'
    · obtain ⟨c, hm⟩ := b4 hc
      rw [hm]; exact .prec b1
  | uint n => exact hb
  | int n => exact hb
  | inf n => exact hb
  | prec n c => exact hb

theorem round_dbl {lib : Lib} (hl : LgOk lib) (hp : Pow01Ok lib) (u : Bool) (prec : Nat) (cfg : Cfg)
    (htl : ∀ n < 2 ^ 64, cfg.tooLong n = false) (v : JV) (hd : AllDbl Normal v) (h : Printable u (fmtD lib u prec) (blank v))
    (ht : Tripable cfg (blank v)) (rest : Bytes) (hr : StopNum rest) :
    ∃ t v', stringifyD lib u prec v = .ok t ∧ parse cfg (t ++ rest) = .ok (v', rest) ∧ Tree (Near cfg lib prec) v v' := by
  have hk := normal_tok hl hp u prec cfg htl
  obtain ⟨t, v', e1, e2, e3⟩ := trip_dbl u (fmtD lib u prec) cfg htl v
    (allDbl_mono (fun d hn => by obtain ⟨t, a1, a2, a3, -⟩ := hk d hn; exact ⟨t, a1, (fmtD_ok a2).symm, a3⟩) v hd) h ht rest hr
  refine ⟨t, v', ?_, e2, tree_near hl hp u prec cfg htl v v' hd e3⟩
  rw [stringifyD, dblsOk_normal hl hp u prec v hd, if_pos rfl]
  exact e1

/-- C01 for trees with doubles (zero or normal ones), printed as `writeDouble` does: every double comes back as a number of
the same sign within the error of printing, the rest of the tree as in `C01_round_trip_partial`. The number is the one the
text denotes; how the reader rounds it is subject of C109 to C111. Missing: numbers below 2^-1022 (`C106_violation_subnormal`) and what is missing there. -/
theorem C01_round_trip_doubles_partial {lib : Lib} (hl : LgOk lib) (hp : Pow01Ok lib) (prec : Nat) (cfg : Cfg)
    (htl : ∀ n < 2 ^ 64, cfg.tooLong n = false) (v : JV) (hd : AllDbl Normal v)
    (h : Printable true (fmtD lib true prec) (blank v)) (ht : Tripable cfg (blank v)) (rest : Bytes) (hr : StopNum rest) :
    ∃ t v', stringifyD lib true prec v = .ok t ∧ parse cfg (t ++ rest) = .ok (v', rest) ∧ Tree (Near cfg lib prec) v v' :=
  round_dbl hl hp true prec cfg htl v hd h ht rest hr

/-- C02 for trees with doubles, as C01. -/
theorem C02_round_trip_doubles_partial {lib : Lib} (hl : LgOk lib) (hp : Pow01Ok lib) (prec : Nat) (cfg : Cfg)
    (htl : ∀ n < 2 ^ 64, cfg.tooLong n = false) (v : JV) (hd : AllDbl Normal v)
    (h : Printable false (fmtD lib false prec) (blank v)) (ht : Tripable cfg (blank v)) (rest : Bytes) (hr : StopNum rest) :
    ∃ t v', stringifyD lib false prec v = .ok t ∧ parse cfg (t ++ rest) = .ok (v', rest) ∧ Tree (Near cfg lib prec) v v' :=
  round_dbl hl hp false prec cfg htl v hd h ht rest hr

/-- The number 1/1000 and a normal double with a large exponent. -/
example : AllDbl Normal (.arr [.num (.dbl ⟨false, 0, 1, 3, 0⟩), .obj [([0x61], .num (.dbl ⟨true, 3, 0, 0, 200⟩))], .num (.dbl ⟨true, 0, 0, 0, 0⟩)]) := by
  simp only [AllDbl, AllDblL, AllDblM, Normal, decQ]
  refine ⟨Or.inr ⟨by norm_num [abs_of_pos], by norm_num [abs_of_pos]⟩, ⟨Or.inr ⟨by norm_num [abs_of_neg], by norm_num [abs_of_neg]⟩, trivial⟩, Or.inl (by norm_num), trivial⟩
example : stringifyD exactLib true 4 (.arr [.num (.dbl ⟨false, 0, 1, 3, 0⟩), .num (.dbl ⟨true, 3, 0, 0, 20⟩)]) = .ok (ascii "[1e-3,-3e+20]") := by
  decide +kernel
example (f : Decimal → Bytes) : Printable true f (blank (.arr [.num (.dbl ⟨false, 0, 1, 3, 0⟩), .bool true])) ∧
    Tripable {} (blank (.arr [.num (.dbl ⟨false, 0, 1, 3, 0⟩), .bool true])) := by
  simp [blank, mapD, mapDL, Printable, PrintableL, Tripable, TripableL]

/-! ## C03 -/

theorem tok_asc (t : NumTok) (h : t.WF) : ∀ b ∈ t.text, 0x20 ≤ b ∧ b ≤ 0x7F := by
  obtain ⟨⟨⟨-, h1⟩, -⟩, h2, h3⟩ := h
  have hd : ∀ b, IsDig b → 0x20 ≤ b ∧ b ≤ 0x7F := by intro b hb; have := dig_range hb; omega
  intro b hb
  unfold NumTok.text at hb
  simp only [List.mem_append] at hb
  rcases hb with hb | hb | hb | hb
  · split at hb
    · simp at hb; omega
    · cases hb
  · exact hd _ (h1 _ hb)
  · cases hf : t.frac with
    | none => rw [hf] at hb; cases hb
    | some f =>
      rw [hf] at hb
      rcases List.mem_cons.1 hb with rfl | hb
      · omega
      · exact hd _ ((h2 f hf).2 _ hb)
  · cases hf : t.exp with
    | none => rw [hf] at hb; cases hb
    | some f =>
      rw [hf] at hb
      obtain ⟨g1, g2, g3⟩ := h3 f hf
      unfold expText at hb
      rcases List.mem_cons.1 hb with rfl | hb
      · omega
      · rcases List.mem_append.1 hb with hb | hb
        · rcases g2 with g2 | g2 | g2 <;> rw [g2] at hb <;> simp at hb <;> omega
        · exact hd _ (g3.2 _ hb)

mutual
theorem numsAsc_of {f : Decimal → Bytes} (hf : ∀ d, ∀ b ∈ f d, 0x20 ≤ b ∧ b ≤ 0x7F) : ∀ v : JV, NumsAsc (fun _ => []) v → NumsAsc f v
  | .undef, h => h
  | .null, h => h
  | .bool _, h => h
  | .num (.uint _), h => h
  | .num (.int _), h => h
  | .num (.dbl d), _ => hf d
  | .num (.inf _), h => h
  | .num (.prec _ _), h => h
  | .str _, h => h
  | .arr l, h => numsAscL_of hf l h
  | .obj l, h => numsAscM_of hf l h
theorem numsAscL_of {f : Decimal → Bytes} (hf : ∀ d, ∀ b ∈ f d, 0x20 ≤ b ∧ b ≤ 0x7F) : ∀ l : List JV, NumsAscL (fun _ => []) l → NumsAscL f l
  | [], h => h
  | v :: l, h => ⟨numsAsc_of hf v h.1, numsAscL_of hf l h.2⟩
theorem numsAscM_of {f : Decimal → Bytes} (hf : ∀ d, ∀ b ∈ f d, 0x20 ≤ b ∧ b ≤ 0x7F) : ∀ l : List (Bytes × JV), NumsAscM (fun _ => []) l → NumsAscM f l
  | [], h => h
  | (_, v) :: l, h => ⟨numsAsc_of hf v h.1, numsAscM_of hf l h.2⟩
end

/-- C03 with doubles: whatever numbers are in the tree (only texts of precise numbers are assumed ASCII), the escaped output is
printable ASCII. -/
theorem C03_ascii_doubles (lib : Lib) (prec : Nat) (v : JV) (h : NumsAsc (fun _ => []) v) (t : Bytes)
    (ht : stringifyD lib false prec v = .ok t) : ∀ b ∈ t, 0x20 ≤ b ∧ b ≤ 0x7F := by
  unfold stringifyD at ht
  split at ht
  · refine C03_ascii _ v ?_ t ht
    have hf : ∀ d, ∀ b ∈ fmtD lib false prec d, 0x20 ≤ b ∧ b ≤ 0x7F := by
      intro d b hb
      unfold fmtD at hb
      split at hb
      · next t ht =>
        obtain ⟨tok, w, e, -⟩ := C105_token lib false prec (decQ d) t ht
        rw [← e] at hb
        exact tok_asc tok w b hb
      · cases hb
    exact numsAsc_of hf v h
  · cases ht

example : NumsAsc (fun _ => []) (.arr [.num (.dbl ⟨true, 3, 0, 0, 20⟩), .num (.prec (ascii "1.50") .dbl)]) ∧
    stringifyD exactLib false 4 (.arr [.num (.dbl ⟨true, 3, 0, 0, 20⟩), .num (.prec (ascii "1.50") .dbl)]) = .ok (ascii "[-3e+20,1.50]") := by
  refine ⟨?_, by decide +kernel⟩
  simp only [NumsAsc, NumsAscL]
  decide

/-! ## C04 -/

/-- C04 with doubles: the text of a tree whose doubles are zero or normal is JSON. -/
theorem C04_grammar_doubles_partial {lib : Lib} (hl : LgOk lib) (hp : Pow01Ok lib) (u : Bool) (prec : Nat) (v : JV)
    (hd : AllDbl Normal v) (h : Printable u (fmtD lib u prec) (blank v)) (t : Bytes) (ht : stringifyD lib u prec v = .ok t) :
    ∃ j, JText False t j ∧ Denotes (fmtD lib u prec) v j := by
  unfold stringifyD at ht
  split at ht
  · have hk := normal_tok hl hp u prec {} (fun _ _ => rfl)
    have h1 := printable_self u {} (fmtD lib u prec) v (allDbl_mono (fun d hn => by
      obtain ⟨t, a1, a2, a3, -⟩ := hk d hn; exact ⟨t, a1, (fmtD_ok a2).symm, a3⟩) v hd) h
    exact C04_grammar_partial u _ _ h1 t ht
  · cases ht

example : AllDbl Normal (.arr [.num (.dbl ⟨false, 0, 1, 3, 0⟩), .bool true]) ∧
    stringifyD exactLib true 4 (.arr [.num (.dbl ⟨false, 0, 1, 3, 0⟩), .bool true]) = .ok (ascii "[1e-3,true]") := by
  refine ⟨?_, by decide +kernel⟩
  simp only [AllDbl, AllDblL, Normal, decQ]
  exact ⟨Or.inr ⟨by norm_num [abs_of_pos], by norm_num [abs_of_pos]⟩, trivial, trivial⟩

/-! ## C106 -/

theorem dblsOkL_mem {lib : Lib} {u : Bool} {prec : Nat} {v : JV} (hv : dblsOk lib u prec v = false) :
    ∀ l : List JV, v ∈ l → dblsOkL lib u prec l = false
  | [], h => by cases h
  | w :: l, h => by
    rw [dblsOkL]
    rcases List.mem_cons.1 h with rfl | h
    · rw [hv]; rfl
    · rw [dblsOkL_mem hv l h, Bool.and_false]

theorem dblsOkM_mem {lib : Lib} {u : Bool} {prec : Nat} {k : Bytes} {v : JV} (hv : dblsOk lib u prec v = false) :
    ∀ l : List (Bytes × JV), (k, v) ∈ l → dblsOkM lib u prec l = false
  | [], h => by cases h
  | (k', w) :: l, h => by
    rw [dblsOkM]
    rcases List.mem_cons.1 h with h | h
    · cases h; rw [hv]; rfl
    · rw [dblsOkM_mem hv l h, Bool.and_false]

/-- **C106 does not hold for documents** in which such a number occurs anywhere: writing the document is undefined. -/
theorem C106_violation_anywhere {lib : Lib} (hl : LgOk lib) (hinf : ∀ i : Int, i ≤ -309 → lib.pow01 i = .inf false)
    (u : Bool) (prec : Nat) (d : Decimal) (h0 : decQ d ≠ 0) (h1 : |decQ d| * (1 + 1 / 2 ^ 40) < 1 / 10 ^ 308) (v : JV)
    (ho : Occurs (.num (.dbl d)) v) : stringifyD lib u prec v = .ub := by
  have : dblsOk lib u prec v = false := by
    induction ho with
    | here => rw [dblsOk, C106_violation_subnormal hl hinf u prec (decQ d) h0 h1]
    | item h _ ih => rw [dblsOk]; exact dblsOkL_mem ih _ h
    | value h _ ih => rw [dblsOk]; exact dblsOkM_mem ih _ h
  rw [stringifyD, this]
  rfl

example : decQ ⟨false, 3, 0, 0, -320⟩ ≠ 0 ∧ |decQ ⟨false, 3, 0, 0, -320⟩| * (1 + 1 / 2 ^ 40) < 1 / 10 ^ 308 ∧
    Occurs (.num (.dbl ⟨false, 3, 0, 0, -320⟩)) (.obj [(ascii "a", .arr [.null, .num (.dbl ⟨false, 3, 0, 0, -320⟩)])]) := by
  refine ⟨?_, ?_, .value (List.mem_cons_self) (.item (List.mem_cons_of_mem _ List.mem_cons_self) .here)⟩
  · simp only [decQ]; norm_num
  · simp only [decQ]
    rw [abs_of_pos (by norm_num)]
    norm_num

end Imt.Props
