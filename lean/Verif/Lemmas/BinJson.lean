import Verif.Spec.BinJson
import Verif.Lemmas.BinTok
/-! # Lemmas about binary JSON: numbers, strings, key dictionary -/
namespace Imt.BinJson
open Imt

theorem readN_append (env : Env) (b rest : Bytes) (h : List Bytes) (k : Nat) :
    readN env b.length ⟨b ++ rest, h, k⟩ = .ok (b, ⟨rest, h, k⟩) := by
  induction b with
  | nil => rfl
  | cons c b ih => simp [readN, next, ih]

theorem readN_append' (env : Env) (n : Nat) (b rest : Bytes) (h : List Bytes) (k : Nat) (hn : b.length = n) :
    readN env n ⟨b ++ rest, h, k⟩ = .ok (b, ⟨rest, h, k⟩) := by
  subst hn; exact readN_append env b rest h k

theorem le_length (k n : Nat) : (le k n).length = k := by
  induction k generalizing n with
  | zero => rfl
  | succ k ih => simp [le, ih]

theorem ofLe_le (k n : Nat) (h : n < 256 ^ k) : ofLe (le k n) = n := by
  induction k generalizing n with
  | zero => simp at h; subst h; rfl
  | succ k ih =>
    simp only [le, ofLe]
    rw [ih (n / 256) (by rw [Nat.pow_succ] at h; omega)]
    omega

theorem le_valid (k n : Nat) : Bytes.Valid (le k n) := by
  induction k generalizing n with
  | zero => intro b hb; simp [le] at hb
  | succ k ih =>
    intro b hb
    simp only [le, List.mem_cons] at hb
    rcases hb with rfl | hb
    · omega
    · exact ih _ b hb

theorem parseLe (env : Env) (k n : Nat) (hn : n < 256 ^ k) (rest : Bytes) (h : List Bytes) (i : Nat) :
    (do let r ← readN env k ⟨le k n ++ rest, h, i⟩
        pure (ofLe r.1, r.2) : Res (Nat × PS)) = .ok (n, ⟨rest, h, i⟩) := by
  rw [readN_append' env k _ _ _ _ (le_length k n)]
  simp [ofLe_le k n hn]

/-- `serializeInteger` writes a tag of its type, and `parseInteger` reads the number back. -/
theorem serInteger_spec (fl : Flags) (env : Env) (n type : Nat) (ht : type % 16 = 0) (hn : n < 2 ^ 64)
    (hf : fl.compat32 = true → n < 2 ^ 32) :
    ∃ tag bs, serInteger fl env n type = tag :: bs ∧ tag / 16 = type / 16 ∧
      ∀ rest h k, parseInteger env tag ⟨bs ++ rest, h, k⟩ = .ok (n, ⟨rest, h, k⟩) := by
  unfold serInteger
  split
  · refine ⟨_, _, rfl, by omega, fun rest h k => ?_⟩
    have hm : (type + n) % 16 = n := by omega
    unfold parseInteger
    simp only [hm, List.nil_append]
    split <;> first | omega | rfl
  · split
    · refine ⟨_, _, rfl, by omega, fun rest h k => ?_⟩
      have hm : (type + 0xA) % 16 = 0xA := by omega
      unfold parseInteger
      simp only [hm]
      exact parseLe env 1 n (by omega) rest h k
    · split
      · refine ⟨_, _, rfl, by omega, fun rest h k => ?_⟩
        have hm : (type + 0xB) % 16 = 0xB := by omega
        unfold parseInteger
        simp only [hm]
        exact parseLe env 2 n (by omega) rest h k
      · split
        · refine ⟨_, _, rfl, by omega, fun rest h k => ?_⟩
          have hm : (type + 0xC) % 16 = 0xC := by omega
          unfold parseInteger
          simp only [hm]
          exact parseLe env 4 n (by omega) rest h k
        · split
          · next h => have := hf h; omega
          · refine ⟨_, _, rfl, by omega, fun rest h k => ?_⟩
            have hm : (type + 0xD) % 16 = 0xD := by omega
            unfold parseInteger
            simp only [hm]
            exact parseLe env 8 n (by omega) rest h k

theorem ser64_spec (env : Env) (n type : Nat) (ht : type % 16 = 0) (hn : n < 2 ^ 64) :
    ∃ tag bs, ser64 n type = tag :: bs ∧ tag / 16 = type / 16 ∧
      ∀ rest h k, parseInteger env tag ⟨bs ++ rest, h, k⟩ = .ok (n, ⟨rest, h, k⟩) := by
  refine ⟨_, _, rfl, by omega, fun rest h k => ?_⟩
  have hm : (type + 0xD) % 16 = 0xD := by omega
  unfold parseInteger
  simp only [hm]
  exact parseLe env 8 n (by omega) rest h k

theorem allocStr_ok (env : Env) (hr : Roomy env) (n : Nat) (hn : n < 2 ^ 60) : allocStr env n = .ok () := by
  obtain ⟨h1, h2, h3, _⟩ := hr
  unfold allocStr
  simp only
  rw [if_neg (by rw [h1 _ (Nat.mod_lt _ (by decide))]; decide), if_neg (by omega)]

theorem first_plain : ∀ c < 256, ¬ (128 ≤ c ∧ c < 192) →
    (c ||| ((c &&& 0x80) >>> 1)) = c ∧ c / 64 ≠ 2 := by decide +kernel

theorem first_tok : ∀ i < 64, (i ||| 0x80) / 64 = 2 ∧ (i ||| 0x80) % 64 = i := by decide +kernel

theorem readToken_ok (env : Env) (i : Nat) (hi : i < 64) (l : List Nat) (hl : ∀ j ∈ l, j < 64)
    (hlen : l.length < 2 ^ 60) (rest : Bytes) (h : List Bytes) (k : Nat) :
    readToken env (l.length + 1) (i ||| 0x80) ⟨pack l ++ rest, h, k⟩ =
      .ok ((i :: l).map Spec.digitUrl, ⟨rest, h, k⟩) := by
  unfold readToken
  simp only [(first_tok i hi).2, Base64.lookupUrl i hi, Res.bind_ok, Nat.add_sub_cancel]
  rw [readN_append' env _ (pack l) rest h k (by rw [pack_length]; omega)]
  simp only [Res.bind_ok]
  have hj : Bytes.Valid ((List.range (l.length + 1 - (l.length * 3 + 3) % 2 ^ 64 / 4)).map
      (fun i => env.junk i % 256)) := by
    intro b hb
    simp only [List.mem_map] at hb
    obtain ⟨j, _, rfl⟩ := hb
    omega
  rw [Base64.encodeCore_eq Base64.lookupUrl]
  · simp only [Res.bind_ok, Res.pure_eq, Bool.false_eq_true, if_false, List.map_cons]
    rw [base64_pack _ l hl _ hj]
  · intro b hb
    rcases List.mem_append.1 hb with hb | hb
    · exact pack_valid l hl b hb
    · exact hj b hb

/-- Texts: what `serializeString` writes, `parseString` without an encoding reads back. -/
theorem serString_text (fl : Flags) (env : Env) (hr : Roomy env) (s : Bytes) (hs : TextOk fl s) (type : Nat)
    (ht : type % 16 = 0) (h10 : type ≠ 0x10) :
    ∃ tag bs, serString fl env s type = .ok (tag :: bs) ∧ tag / 16 = type / 16 ∧
      ∀ rest h k, parseString env tag false ⟨bs ++ rest, h, k⟩ = .ok (s, ⟨rest, h, k⟩) := by
  obtain ⟨hv, hst, hf1, hf2⟩ := hs
  obtain ⟨tag, bs, e1, e2, e3⟩ := serInteger_spec fl env s.length type ht (by omega) hf2
  match s with
  | [] =>
    refine ⟨tag, bs, by unfold serString; rw [e1]; simp [serChars], e2, fun rest h k => ?_⟩
    unfold parseString
    rw [e3]; rfl
  | c :: cs =>
    have hlen : cs.length < 2 ^ 60 := by simp at hf1; omega
    unfold serString serChars
    simp only [h10, decide_false, Bool.false_eq_true, if_false]
    split
    · next htok =>
      simp only [Bool.and_eq_true, canCompress, List.all_eq_true] at htok
      obtain ⟨l, hl1, hl2⟩ := tok_digits (c :: cs) htok.2.2
      match l with
      | [] => simp at hl2
      | i :: l =>
        simp only [List.map_cons, List.cons.injEq] at hl2
        obtain ⟨rfl, rfl⟩ := hl2
        have hi : i < 64 := hl1 i (by simp)
        have hl : ∀ j ∈ l, j < 64 := fun j hj => hl1 j (by simp [hj])
        obtain ⟨d', hd1, hd2⟩ := decLoop_pack Base64.tableUrl l hl ((l.length * 3 + 3) / 4) 0 rfl ⟨[], 0⟩ (by simp)
        simp only [List.length_map] at *
        rw [hd1]
        simp only [Res.bind_ok, Res.pure_eq, Base64.tableUrl i hi]
        rw [hd2, e1]
        refine ⟨tag, bs ++ ((i ||| 0x80) :: pack l), by simp, e2, fun rest h k => ?_⟩
        unfold parseString
        rw [List.append_assoc, e3]
        simp only [Res.bind_ok, List.length_cons, List.length_map]
        rw [if_neg (by omega)]
        simp only [if_true, next, List.cons_append, Res.bind_ok]
        rw [allocStr_ok env hr _ (by simpa using hf1)]
        simp only [Res.bind_ok, (first_tok i hi).1, if_true]
        exact readToken_ok env i hi l hl hlen rest h k
    · have hc := first_plain c (hv c (by simp)) (hst c (by simp))
      rw [e1, hc.1]
      refine ⟨tag, bs ++ c :: cs, rfl, e2, fun rest h k => ?_⟩
      unfold parseString
      rw [List.append_assoc, e3]
      simp only [Res.bind_ok, List.length_cons]
      rw [if_neg (by omega)]
      simp only [if_true, next, List.cons_append, Res.bind_ok]
      rw [allocStr_ok env hr _ (by simpa using hf1)]
      simp only [Res.bind_ok, if_neg hc.2, Nat.add_sub_cancel]
      rw [readN_append]
      rfl

/-- Binary strings. -/
theorem serString_bin (fl : Flags) (env : Env) (hr : Roomy env) (s : Bytes) (hf : Fits fl s.length) (hne : s ≠ []) :
    ∃ tag bs, serString fl env s 0x10 = .ok (tag :: bs) ∧ tag / 16 = 1 ∧
      ∀ rest h k, parseString env tag true ⟨bs ++ rest, h, k⟩ = .ok (s, ⟨rest, h, k⟩) := by
  obtain ⟨hf1, hf2⟩ := hf
  obtain ⟨tag, bs, e1, e2, e3⟩ := serInteger_spec fl env s.length 0x10 rfl (by omega) hf2
  match s with
  | [] => exact absurd rfl hne
  | c :: cs =>
    refine ⟨tag, bs ++ c :: cs, by unfold serString; rw [e1]; simp [serChars], e2, fun rest h k => ?_⟩
    unfold parseString
    rw [List.append_assoc, e3]
    simp only [Res.bind_ok]
    rw [if_neg (by simp)]
    simp only [Bool.true_eq_false, if_false]
    rw [allocStr_ok env hr _ hf1]
    simp only [Res.bind_ok]
    exact readN_append env (c :: cs) rest h k

theorem idxOf_cons_ne {k key : Bytes} (h : k ≠ key) (l : List Bytes) : (key :: l).idxOf k = l.idxOf k + 1 := by
  rw [List.idxOf_cons]
  have : (key == k) = false := by simpa using Ne.symm h
  rw [this]; rfl

/-! ## The key dictionary -/

/-- Serializer and parser agree on the keys sent so far; `RK` lists them, the latest first. -/
structure Sync (fl : Flags) (ss : SS) (hist : List Bytes) (ki : Nat) (RK : List Bytes) : Prop where
  ki_eq : ki = RK.length
  len : hist.length = min RK.length 128
  ring : ∀ d, d < hist.length → hist[(ki - 1 - d) % 128]? = RK[d]?
  ids : fl.compressKeys = true → ss.next = 256 + RK.length ∧
    ∀ key, ss.ids key = if key ∈ RK then 255 + RK.length - RK.idxOf key else 0

theorem Sync.init (fl : Flags) : Sync fl SS.init [] 0 [] :=
  ⟨rfl, rfl, by simp, fun _ => ⟨rfl, by simp [SS.init]⟩⟩

/-- The ring after one more key. -/
theorem storeKey_ring (s : Bytes) (hist : List Bytes) (RK : List Bytes) (key : Bytes) (hb : RK.length + 1 < 2 ^ 32)
    (hl : hist.length = min RK.length 128)
    (hr : ∀ d, d < hist.length → hist[(RK.length - 1 - d) % 128]? = RK[d]?) :
    ∃ hist', storeKey ⟨s, hist, RK.length⟩ key = .ok ⟨s, hist', RK.length + 1⟩ ∧
      hist'.length = min (RK.length + 1) 128 ∧
      ∀ d, d < hist'.length → hist'[(RK.length + 1 - 1 - d) % 128]? = (key :: RK)[d]? := by
  unfold storeKey
  simp only
  by_cases h1 : hist.length = RK.length % 128
  · rw [if_pos h1]
    have h2 : RK.length < 128 := by omega
    refine ⟨hist ++ [key], by rw [Nat.mod_eq_of_lt (by omega)], by simp; omega, fun d hd => ?_⟩
    simp at hd
    match d with
    | 0 =>
      rw [show (RK.length + 1 - 1 - 0) % 128 = hist.length by omega]
      simp
    | d + 1 =>
      have := hr d (by omega)
      rw [show (RK.length + 1 - 1 - (d + 1)) % 128 = (RK.length - 1 - d) % 128 by omega,
        List.getElem?_append_left (by omega), this]
      simp
  · rw [if_neg h1, if_pos (by omega)]
    have h2 : 128 ≤ RK.length := by omega
    refine ⟨hist.set (RK.length % 128) key, by rw [Nat.mod_eq_of_lt hb], by simp; omega, fun d hd => ?_⟩
    simp at hd
    match d with
    | 0 =>
      rw [show (RK.length + 1 - 1 - 0) % 128 = RK.length % 128 by omega]
      rw [List.getElem?_set_self (by omega)]; rfl
    | d + 1 =>
      have := hr d (by omega)
      rw [show (RK.length + 1 - 1 - (d + 1)) % 128 = (RK.length - 1 - d) % 128 by omega,
        List.getElem?_set_ne (by omega), this]
      simp

/-- A key the serializer replaces by a code is the one the parser looks up under that code; otherwise both sides add
it. -/
theorem tryCompress_spec (fl : Flags) (hc : fl.compressKeys = true) (ss : SS) (hist : List Bytes) (ki : Nat)
    (RK : List Bytes) (hs : Sync fl ss hist ki RK) (hb : RK.length + 257 < 2 ^ 32) (key : Bytes) :
    (∃ code, tryCompressKey ss key = (some code, ss) ∧ code < 128 ∧
      ∀ s, histKey ⟨s, hist, ki⟩ (128 + code) = key) ∨
    (∃ ss', tryCompressKey ss key = (none, ss') ∧ ss'.next = 256 + (RK.length + 1) ∧
      ∀ k, ss'.ids k = if k ∈ key :: RK then 255 + (RK.length + 1) - (key :: RK).idxOf k else 0) := by
  obtain ⟨hn, hid⟩ := hs.ids hc
  have hki := hs.ki_eq
  subst hki
  unfold tryCompressKey
  simp only [hn]
  by_cases hm : key ∈ RK
  · have hi := List.idxOf_lt_length_of_mem hm
    have hidk := hid key
    rw [if_pos hm] at hidk
    have hd : (256 + RK.length + (2 ^ 32 - ss.ids key) + (2 ^ 32 - 1)) % 2 ^ 32 = RK.idxOf key := by
      rw [hidk]; omega
    rw [hd]
    by_cases h : RK.idxOf key < 128
    · rw [if_pos h]
      refine Or.inl ⟨_, rfl, h, fun s => ?_⟩
      unfold histKey
      simp only [hs.ki_eq]
      have hr := hs.ring (RK.idxOf key) (by rw [hs.len]; omega)
      have e : (RK.length + (2 ^ 32 - 1) + (2 ^ 32 - (128 + RK.idxOf key))) % 2 ^ 32 % 128 =
          (RK.length - 1 - RK.idxOf key) % 128 := by omega
      rw [e]
      rw [List.getD_eq_getElem?_getD, hr, List.getElem?_eq_getElem hi, List.getElem_idxOf hi]
      rfl
    · rw [if_neg h]
      refine Or.inr ⟨_, rfl, by simp only; omega, fun k => ?_⟩
      simp only
      by_cases hk : k = key
      · subst hk; simp; omega
      · rw [if_neg hk, hid k, idxOf_cons_ne hk]
        by_cases hkm : k ∈ RK
        · rw [if_pos hkm, if_pos (List.mem_cons_of_mem _ hkm)]; omega
        · rw [if_neg hkm, if_neg (by simp [hk, hkm])]
  · have hidk := hid key
    rw [if_neg hm] at hidk
    rw [hidk, if_neg (by omega)]
    refine Or.inr ⟨_, rfl, by simp only; omega, fun k => ?_⟩
    simp only
    by_cases hk : k = key
    · subst hk; simp; omega
    · rw [if_neg hk, hid k, idxOf_cons_ne hk]
      by_cases hkm : k ∈ RK
      · rw [if_pos hkm, if_pos (List.mem_cons_of_mem _ hkm)]; omega
      · rw [if_neg hkm, if_neg (by simp [hk, hkm])]

end Imt.BinJson
