import Verif.Model.Base64
import Verif.Spec.Base64
import Verif.Lemmas.Utf8
/-! # Lemmas about base64 -/
namespace Imt.Base64
open Imt

theorem lookup64 : ∀ i < 64, lookup chars64 i = .ok (Spec.digit64 i) := by decide +kernel
theorem lookupUrl : ∀ i < 64, lookup charsUrl i = .ok (Spec.digitUrl i) := by decide +kernel
theorem table64 : ∀ i < 64, (mkTable chars64).getD (Spec.digit64 i) 0xFF = i := by decide +kernel
theorem tableUrl : ∀ i < 64, (mkTable charsUrl).getD (Spec.digitUrl i) 0xFF = i := by decide +kernel
theorem table64_le : ∀ i < 256, (mkTable chars64).getD i 0xFF ≤ 255 := by decide +kernel
theorem tableUrl_le : ∀ i < 256, (mkTable charsUrl).getD i 0xFF ≤ 255 := by decide +kernel

/-- What the encoder state has produced so far. -/
def Enc.total (e : Enc) : Bytes := e.out ++ e.buf

theorem Enc.flush_total (e : Enc) : e.flush.total = e.total := by
  unfold Enc.flush Enc.total; split <;> simp
theorem Enc.flush_len (e : Enc) : e.flush.buf.length ≤ 250 := by
  unfold Enc.flush; split
  · simp
  · omega
theorem Enc.flush_nx (e : Enc) : e.flush.nx = e.nx := by
  unfold Enc.flush; split <;> rfl

theorem Enc.put_ok (e : Enc) (ch : Nat) (h : e.buf.length < 256) :
    e.put ch = .ok { e with buf := e.buf ++ [ch] } := if_pos h

theorem or_lo (a b : Nat) (i : Nat) (h : b < 2 ^ i) : (a * 2 ^ i) ||| b = a * 2 ^ i + b := by
  have := Nat.shiftLeft_add_eq_or_of_lt h a
  rw [Nat.shiftLeft_eq] at this; exact this.symm

theorem nx0 (a : Nat) : (a <<< 4) &&& 0x3F = a % 4 * 16 := by
  rw [Utf8.and3F, Nat.shiftLeft_eq]; omega
theorem nx1 (a : Nat) : (a <<< 2) &&& 0x3F = a % 16 * 4 := by
  rw [Utf8.and3F, Nat.shiftLeft_eq]; omega

section
variable {chars : Bytes} {dig : Nat → Nat} (hl : ∀ i < 64, lookup chars i = .ok (dig i))
include hl

theorem encStep0 (k : Nat) (e : Enc) (a : Nat) (ha : a < 256) (hb : e.buf.length ≤ 250) (hk : k % 3 = 0) :
    ∃ e', encStep chars k e a = .ok e' ∧ e'.total = e.total ++ [dig (a / 4)] ∧ e'.buf.length ≤ 250 ∧
      e'.nx = a % 4 * 16 := by
  unfold encStep
  rw [hk]
  simp only [Nat.shiftRight_eq_div_pow, nx0]
  rw [hl _ (by omega)]
  simp only [Res.bind_ok]
  rw [Enc.put_ok _ _ (by omega)]
  simp only [Res.bind_ok, Res.pure_eq]
  refine ⟨_, rfl, ?_, Enc.flush_len _, ?_⟩
  · rw [Enc.flush_total]; simp [Enc.total]
  · rw [Enc.flush_nx]

theorem encStep1 (k : Nat) (e : Enc) (a b : Nat) (hb' : b < 256) (hb : e.buf.length ≤ 250)
    (hk : k % 3 = 1) (hn : e.nx = a % 4 * 16) :
    ∃ e', encStep chars k e b = .ok e' ∧ e'.total = e.total ++ [dig (a % 4 * 16 + b / 16)] ∧ e'.buf.length ≤ 250 ∧
      e'.nx = b % 16 * 4 := by
  unfold encStep
  rw [hk]
  simp only [Nat.shiftRight_eq_div_pow, nx1, hn]
  rw [or_lo (a % 4) (b / 2 ^ 4) 4 (by omega), hl _ (by omega)]
  simp only [Res.bind_ok]
  rw [Enc.put_ok _ _ (by omega)]
  simp only [Res.bind_ok, Res.pure_eq]
  refine ⟨_, rfl, ?_, Enc.flush_len _, ?_⟩
  · rw [Enc.flush_total]; simp [Enc.total]
  · rw [Enc.flush_nx]

theorem encStep2 (k : Nat) (e : Enc) (b c : Nat) (hc : c < 256) (hb : e.buf.length ≤ 250)
    (hk : k % 3 = 2) (hn : e.nx = b % 16 * 4) :
    ∃ e', encStep chars k e c = .ok e' ∧ e'.total = e.total ++ [dig (b % 16 * 4 + c / 64), dig (c % 64)] ∧
      e'.buf.length ≤ 250 := by
  unfold encStep
  rw [hk]
  simp only [Nat.shiftRight_eq_div_pow, hn, Utf8.and3F]
  rw [or_lo (b % 16) (c / 2 ^ 6) 2 (by omega), hl _ (by omega)]
  simp only [Res.bind_ok]
  rw [Enc.put_ok _ _ (by omega), hl _ (by omega)]
  simp only [Res.bind_ok]
  rw [Enc.put_ok _ _ (by simp; omega)]
  simp only [Res.bind_ok, Res.pure_eq]
  refine ⟨_, rfl, ?_, Enc.flush_len _⟩
  rw [Enc.flush_total]; simp [Enc.total]

/-- Core lemma: everything after the loop, from a state between groups, equals the specification. -/
theorem encodeTail (tail : Bool) (data : Bytes) (hv : Bytes.Valid data) (k : Nat) (hk : k % 3 = 0) (e : Enc)
    (he : e.buf.length ≤ 250) (padd : Nat) (hp : padd = (3 - data.length % 3) % 3) :
    (do
      let (rdpos, e) ← encLoop chars k e data
      let e ← (if rdpos % 3 ≠ 0 then do
          let ch ← lookup chars e.nx
          e.put ch
        else pure e)
      let e ← (if tail then putPad padd e else pure e)
      pure (e.out ++ e.buf) : Res Bytes) =
    .ok (e.total ++ Spec.base64 dig (fun n => if tail then List.replicate n 0x3D else []) data) := by
  match data with
  | [] =>
    simp at hp; subst hp
    cases tail <;> simp [encLoop, hk, putPad, Spec.base64, Enc.total]
  | [a] =>
    have ha : a < 256 := hv a (by simp)
    obtain ⟨e1, h1, t1, l1, n1⟩ := encStep0 hl k e a ha he hk
    have : (k + 1) % 3 ≠ 0 := by omega
    simp at hp; subst hp
    simp only [encLoop, h1, Res.bind_ok, Spec.base64, if_pos this, n1]
    rw [hl _ (by omega)]
    simp only [Res.bind_ok]
    rw [Enc.put_ok _ _ (by omega)]
    have e1' : e1.out ++ e1.buf = e.total ++ [dig (a / 4)] := t1
    have q1 : a * 65536 / 262144 = a / 4 := by omega
    have q2 : a * 65536 / 4096 % 64 = a % 4 * 16 := by omega
    cases tail
    · simp only [Res.bind_ok, Res.pure_eq, Bool.false_eq_true, if_false, ← List.append_assoc, e1', q1, q2]; simp
    · simp only [Res.bind_ok, if_true, putPad]
      rw [Enc.put_ok _ _ (by simp; omega)]
      simp only [Res.bind_ok]
      rw [Enc.put_ok _ _ (by simp; omega)]
      simp only [Res.bind_ok, Res.pure_eq, Bool.false_eq_true, if_false, ← List.append_assoc, e1', q1, q2]; simp
  | [a, b] =>
    have ha : a < 256 := hv a (by simp)
    have hb : b < 256 := hv b (by simp)
    obtain ⟨e1, h1, t1, l1, n1⟩ := encStep0 hl k e a ha he hk
    obtain ⟨e2, h2, t2, l2, n2⟩ := encStep1 hl (k + 1) e1 a b hb l1 (by omega) n1
    have : (k + 1 + 1) % 3 ≠ 0 := by omega
    simp at hp; subst hp
    simp only [encLoop, h1, h2, Res.bind_ok, Spec.base64, if_pos this, n2]
    rw [hl _ (by omega)]
    simp only [Res.bind_ok]
    rw [Enc.put_ok _ _ (by omega)]
    rw [t1] at t2
    have e2' : e2.out ++ e2.buf = e.total ++ [dig (a / 4)] ++ [dig (a % 4 * 16 + b / 16)] := t2
    have q1 : (a * 65536 + b * 256) / 262144 = a / 4 := by omega
    have q2 : (a * 65536 + b * 256) / 4096 % 64 = a % 4 * 16 + b / 16 := by omega
    have q3 : (a * 65536 + b * 256) / 64 % 64 = b % 16 * 4 := by omega
    cases tail
    · simp only [Res.bind_ok, Res.pure_eq, Bool.false_eq_true, if_false, ← List.append_assoc, e2', q1, q2, q3]; simp
    · simp only [Res.bind_ok, if_true, putPad]
      rw [Enc.put_ok _ _ (by simp; omega)]
      simp only [Res.bind_ok, Res.pure_eq, Bool.false_eq_true, if_false, ← List.append_assoc, e2', q1, q2, q3]; simp
  | a :: b :: c :: r =>
    have ha : a < 256 := hv a (by simp)
    have hb : b < 256 := hv b (by simp)
    have hc : c < 256 := hv c (by simp)
    obtain ⟨e1, h1, t1, l1, n1⟩ := encStep0 hl k e a ha he hk
    obtain ⟨e2, h2, t2, l2, n2⟩ := encStep1 hl (k + 1) e1 a b hb l1 (by omega) n1
    obtain ⟨e3, h3, t3, l3⟩ := encStep2 hl (k + 1 + 1) e2 b c hc l2 (by omega) n2
    have ih := encodeTail tail r (fun x hx => hv x (by simp [hx])) (k + 1 + 1 + 1) (by omega) e3 l3 padd
      (by simp at hp; omega)
    simp only [encLoop, h1, h2, h3, Res.bind_ok, Spec.base64]
    rw [ih, t3, t2, t1]
    have q1 : (a * 65536 + b * 256 + c) / 262144 = a / 4 := by omega
    have q2 : (a * 65536 + b * 256 + c) / 4096 % 64 = a % 4 * 16 + b / 16 := by omega
    have q3 : (a * 65536 + b * 256 + c) / 64 % 64 = b % 16 * 4 + c / 64 := by omega
    have q4 : (a * 65536 + b * 256 + c) % 64 = c % 64 := by omega
    simp [q1, q2, q3, q4]
termination_by data.length

theorem encodeCore_eq (tail : Bool) (data : Bytes) (hv : Bytes.Valid data) :
    encodeCore chars tail data =
      .ok (Spec.base64 dig (fun n => if tail then List.replicate n 0x3D else []) data) := by
  unfold encodeCore
  split
  · next h =>
    have : data = [] := List.eq_nil_of_length_eq_zero h
    subst this; rfl
  · have := encodeTail hl tail data hv 0 rfl ⟨[], [], 0⟩ (by simp)
      ((data.length + 2) / 3 * 3 - data.length) (by omega)
    simpa [Enc.total] using this
end

theorem and3 (n : Nat) : n &&& 3 = n % 4 := Nat.and_two_pow_sub_one_eq_mod n 2

section
variable {table : List Nat} {dig : Nat → Nat} (ht : ∀ i < 64, table.getD (dig i) 0xFF = i)
include ht

theorem decStep0 (cap k : Nat) (d : Dec) (i : Nat) (hi : i < 64) (hk : k % 4 = 0) (hc : d.done.length < cap) :
    decStep table cap k d (dig i) = .ok ⟨d.done, i * 4⟩ := by
  unfold decStep
  simp only [and3, hk, ht i hi, Dec.guard, if_pos hc, Res.bind_ok, Res.pure_eq, Nat.shiftLeft_eq]
  congr 2; omega

theorem decStep1 (cap k : Nat) (d : Dec) (x i : Nat) (hi : i < 64) (hk : k % 4 = 1)
    (hc : d.done.length + 1 < cap) (hx : d.cur = x * 4) :
    decStep table cap k d (dig i) = .ok ⟨d.done ++ [x * 4 + i / 16], i % 16 * 16⟩ := by
  unfold decStep
  simp only [and3, hk, ht i hi, Dec.guard, if_pos (show d.done.length < cap by omega), Res.bind_ok, Res.pure_eq,
    Nat.shiftLeft_eq, Nat.shiftRight_eq_div_pow, hx, List.length_append, List.length_singleton, if_pos hc]
  rw [or_lo x (i / 2 ^ 4) 2 (by omega)]
  congr 2; omega

theorem decStep2 (cap k : Nat) (d : Dec) (x i : Nat) (hi : i < 64) (hk : k % 4 = 2)
    (hc : d.done.length + 1 < cap) (hx : d.cur = x * 16) :
    decStep table cap k d (dig i) = .ok ⟨d.done ++ [x * 16 + i / 4], i % 4 * 64⟩ := by
  unfold decStep
  simp only [and3, hk, ht i hi, Dec.guard, if_pos (show d.done.length < cap by omega), Res.bind_ok, Res.pure_eq,
    Nat.shiftLeft_eq, Nat.shiftRight_eq_div_pow, hx, List.length_append, List.length_singleton, if_pos hc]
  rw [or_lo x (i / 2 ^ 2) 4 (by omega)]
  congr 2; omega

theorem decStep3 (cap k : Nat) (d : Dec) (x i : Nat) (hi : i < 64) (hk : k % 4 = 3)
    (hc : d.done.length < cap) (hx : d.cur = x * 64) :
    decStep table cap k d (dig i) = .ok ⟨d.done ++ [x * 64 + i], 0⟩ := by
  unfold decStep
  simp only [and3, hk, ht i hi, Dec.guard, if_pos hc, Res.bind_ok, Res.pure_eq, hx]
  rw [or_lo x i 6 (by omega)]

/-- Decoding the unpadded digits of a byte string writes exactly its bytes. -/
theorem decLoop_spec (data : Bytes) (hv : Bytes.Valid data) (cap k : Nat) (hk : k % 4 = 0) (d : Dec)
    (hc : d.done.length + data.length + 1 < cap) :
    ∃ c, decLoop table cap k d (Spec.base64 dig (fun _ => []) data) = .ok ⟨d.done ++ data, c⟩ := by
  match data with
  | [] => exact ⟨d.cur, by simp [decLoop, Spec.base64]⟩
  | [a] =>
    have ha : a < 256 := hv a (by simp)
    simp at hc
    have q1 : a * 65536 / 262144 = a / 4 := by omega
    have q2 : a * 65536 / 4096 % 64 = a % 4 * 16 := by omega
    simp only [Spec.base64, q1, q2, List.append_nil, decLoop]
    rw [decStep0 ht _ _ _ _ (by omega) hk (by omega)]
    simp only [Res.bind_ok]
    rw [decStep1 ht cap (k + 1) ⟨d.done, a / 4 * 4⟩ (a / 4) (a % 4 * 16) (by omega) (by omega) (by simp; omega) rfl]
    have e1 : a / 4 * 4 + a % 4 * 16 / 16 = a := by omega
    rw [e1]
    exact ⟨_, rfl⟩
  | [a, b] =>
    have ha : a < 256 := hv a (by simp)
    have hb : b < 256 := hv b (by simp)
    simp at hc
    have q1 : (a * 65536 + b * 256) / 262144 = a / 4 := by omega
    have q2 : (a * 65536 + b * 256) / 4096 % 64 = a % 4 * 16 + b / 16 := by omega
    have q3 : (a * 65536 + b * 256) / 64 % 64 = b % 16 * 4 := by omega
    simp only [Spec.base64, q1, q2, q3, List.append_nil, decLoop]
    rw [decStep0 ht _ _ _ _ (by omega) hk (by omega)]
    simp only [Res.bind_ok]
    rw [decStep1 ht cap (k + 1) ⟨d.done, a / 4 * 4⟩ (a / 4) _ (by omega) (by omega) (by simp; omega) rfl]
    simp only [Res.bind_ok]
    rw [decStep2 ht cap (k + 1 + 1) ⟨_, (a % 4 * 16 + b / 16) % 16 * 16⟩ (b / 16) _ (by omega) (by omega)
      (by simp; omega) (by simp; omega)]
    have e1 : a / 4 * 4 + (a % 4 * 16 + b / 16) / 16 = a := by omega
    have e2 : b / 16 * 16 + b % 16 * 4 / 4 = b := by omega
    rw [e1, e2]
    simp only [Res.bind_ok, List.append_assoc, List.singleton_append]
    exact ⟨_, rfl⟩
  | a :: b :: c :: r =>
    have ha : a < 256 := hv a (by simp)
    have hb : b < 256 := hv b (by simp)
    have hc' : c < 256 := hv c (by simp)
    simp at hc
    have q1 : (a * 65536 + b * 256 + c) / 262144 = a / 4 := by omega
    have q2 : (a * 65536 + b * 256 + c) / 4096 % 64 = a % 4 * 16 + b / 16 := by omega
    have q3 : (a * 65536 + b * 256 + c) / 64 % 64 = b % 16 * 4 + c / 64 := by omega
    have q4 : (a * 65536 + b * 256 + c) % 64 = c % 64 := by omega
    simp only [Spec.base64, q1, q2, q3, q4, List.cons_append, List.nil_append, decLoop]
    rw [decStep0 ht _ _ _ _ (by omega) hk (by omega)]
    simp only [Res.bind_ok]
    rw [decStep1 ht cap (k + 1) ⟨d.done, a / 4 * 4⟩ (a / 4) _ (by omega) (by omega) (by simp; omega) rfl]
    simp only [Res.bind_ok]
    rw [decStep2 ht cap (k + 1 + 1) ⟨_, (a % 4 * 16 + b / 16) % 16 * 16⟩ (b / 16) _ (by omega) (by omega)
      (by simp; omega) (by simp; omega)]
    simp only [Res.bind_ok]
    rw [decStep3 ht cap (k + 1 + 1 + 1) ⟨_, (b % 16 * 4 + c / 64) % 4 * 64⟩ (c / 64) _ (by omega) (by omega)
      (by simp; omega) (by simp; omega)]
    simp only [Res.bind_ok]
    have e1 : a / 4 * 4 + (a % 4 * 16 + b / 16) / 16 = a := by omega
    have e2 : b / 16 * 16 + (b % 16 * 4 + c / 64) / 4 = b := by omega
    have e3 : c / 64 * 64 + c % 64 = c := by omega
    rw [e1, e2, e3]
    obtain ⟨c', h'⟩ := decLoop_spec r (fun x hx => hv x (by simp [hx])) cap (k + 1 + 1 + 1 + 1) (by omega)
      ⟨d.done ++ [a] ++ [b] ++ [c], 0⟩ (by simp; omega)
    exact ⟨c', by rw [h']; simp⟩
termination_by data.length
end

theorem base64_nopad_length (dig : Nat → Nat) (data : Bytes) :
    (Spec.base64 dig (fun _ => []) data).length = (data.length * 4 + 2) / 3 := by
  match data with
  | [] => rfl
  | [a] => simp [Spec.base64]
  | [a, b] => simp [Spec.base64]
  | a :: b :: c :: r =>
    simp only [Spec.base64, List.length_append, List.length_cons, List.length_nil, base64_nopad_length dig r]
    omega
termination_by data.length

theorem base64_pad_length (dig : Nat → Nat) (p : Nat) (data : Bytes) :
    (Spec.base64 dig (fun n => List.replicate n p) data).length = (data.length + 2) / 3 * 4 := by
  match data with
  | [] => rfl
  | [a] => simp [Spec.base64]
  | [a, b] => simp [Spec.base64]
  | a :: b :: c :: r =>
    simp only [Spec.base64, List.length_append, List.length_cons, List.length_nil, base64_pad_length dig p r]
    omega
termination_by data.length

theorem base64_pad_eq (dig : Nat → Nat) (p : Nat) (data : Bytes) :
    Spec.base64 dig (fun n => List.replicate n p) data =
      Spec.base64 dig (fun _ => []) data ++ List.replicate ((3 - data.length % 3) % 3) p := by
  match data with
  | [] => rfl
  | [a] => simp [Spec.base64]
  | [a, b] => simp [Spec.base64]
  | a :: b :: c :: r =>
    simp only [Spec.base64, base64_pad_eq dig p r, List.length_cons, List.append_assoc]
    have : (r.length + 1 + 1 + 1) % 3 = r.length % 3 := by omega
    rw [this]
termination_by data.length

theorem base64_mem (dig : Nat → Nat) (data : Bytes) (hv : Bytes.Valid data) :
    ∀ ch ∈ Spec.base64 dig (fun _ => []) data, ∃ i < 64, ch = dig i := by
  match data with
  | [] => simp [Spec.base64]
  | [a] =>
    have ha : a < 256 := hv a (by simp)
    intro ch h
    simp only [Spec.base64, List.append_nil, List.mem_cons, List.not_mem_nil, or_false] at h
    rcases h with rfl | rfl
    · exact ⟨_, by omega, rfl⟩
    · exact ⟨_, by omega, rfl⟩
  | [a, b] =>
    have ha : a < 256 := hv a (by simp)
    have hb : b < 256 := hv b (by simp)
    intro ch h
    simp only [Spec.base64, List.append_nil, List.mem_cons, List.not_mem_nil, or_false] at h
    rcases h with rfl | rfl | rfl
    · exact ⟨_, by omega, rfl⟩
    · exact ⟨_, by omega, rfl⟩
    · exact ⟨_, by omega, rfl⟩
  | a :: b :: c :: r =>
    have ha : a < 256 := hv a (by simp)
    have hb : b < 256 := hv b (by simp)
    have hc : c < 256 := hv c (by simp)
    intro ch h
    simp only [Spec.base64, List.mem_append, List.mem_cons, List.not_mem_nil, or_false] at h
    rcases h with (rfl | rfl | rfl | rfl) | h
    · exact ⟨_, by omega, rfl⟩
    · exact ⟨_, by omega, rfl⟩
    · exact ⟨_, by omega, rfl⟩
    · exact ⟨_, by omega, rfl⟩
    · exact base64_mem dig r (fun x hx => hv x (by simp [hx])) ch h
termination_by data.length

end Imt.Base64
