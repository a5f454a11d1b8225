import Verif.Model.BinJson
import Verif.Lemmas.Base64
/-! # Token strings of binary JSON: packing four characters into three bytes -/
namespace Imt.BinJson
open Imt

/-- Digits packed six bits each. -/
def pack : List Nat → Bytes
  | [] => []
  | [a] => [a * 4]
  | [a, b] => [a * 4 + b / 16, b % 16 * 16]
  | [a, b, c] => [a * 4 + b / 16, b % 16 * 16 + c / 4, c % 4 * 64]
  | a :: b :: c :: d :: r => [a * 4 + b / 16, b % 16 * 16 + c / 4, c % 4 * 64 + d] ++ pack r

theorem pack_length (l : List Nat) : (pack l).length = (l.length * 3 + 3) / 4 := by
  match l with
  | [] => rfl
  | [a] => simp [pack]
  | [a, b] => simp [pack]
  | [a, b, c] => simp [pack]
  | a :: b :: c :: d :: r => simp [pack, pack_length r]; omega
termination_by l.length

theorem pack_valid (l : List Nat) (hl : ∀ i ∈ l, i < 64) : Bytes.Valid (pack l) := by
  match l with
  | [] => intro b hb; simp [pack] at hb
  | [a] =>
    have := hl a (by simp)
    intro b hb; simp only [pack, List.mem_cons, List.not_mem_nil, or_false] at hb; omega
  | [a, b] =>
    have := hl a (by simp); have := hl b (by simp)
    intro x hb; simp only [pack, List.mem_cons, List.not_mem_nil, or_false] at hb; omega
  | [a, b, c] =>
    have := hl a (by simp); have := hl b (by simp); have := hl c (by simp)
    intro x hb; simp only [pack, List.mem_cons, List.not_mem_nil, or_false] at hb; omega
  | a :: b :: c :: d :: r =>
    have := hl a (by simp); have := hl b (by simp); have := hl c (by simp); have := hl d (by simp)
    have ih := pack_valid r (fun i hi => hl i (by simp [hi]))
    intro x hb
    simp only [pack, List.mem_append, List.mem_cons, List.not_mem_nil, or_false] at hb
    rcases hb with h | h
    · omega
    · exact ih x h
termination_by l.length

section
variable {table : List Nat} {dig : Nat → Nat} (ht : ∀ i < 64, table.getD (dig i) 0xFF = i)
include ht
open Base64

/-- Decoding digits into a buffer of exactly `⌈3n/4⌉` bytes stays inside it and fills it with the packed digits. -/
theorem decLoop_pack (l : List Nat) (hl : ∀ i ∈ l, i < 64) (cap k : Nat) (hk : k % 4 = 0) (d : Dec)
    (hc : d.done.length + (l.length * 3 + 3) / 4 = cap) :
    ∃ d', decLoop table cap k d (l.map dig) = .ok d' ∧ (d'.done ++ [d'.cur]).take cap = d.done ++ pack l := by
  match l with
  | [] => exact ⟨d, rfl, by simp at hc; simp [pack, ← hc]⟩
  | [a] =>
    have ha := hl a (by simp)
    simp at hc
    refine ⟨_, by
      simp only [List.map, decLoop]
      rw [decStep0 ht cap k d a ha hk (by omega)]
      rfl, ?_⟩
    apply List.take_of_length_le; simp; omega
  | [a, b] =>
    have ha := hl a (by simp); have hb := hl b (by simp)
    simp at hc
    refine ⟨_, by
      simp only [List.map, decLoop]
      rw [decStep0 ht cap k d a ha hk (by omega)]
      simp only [Res.bind_ok]
      rw [decStep1 ht cap (k + 1) ⟨d.done, a * 4⟩ a b hb (by omega) (by simp; omega) rfl]
      rfl, ?_⟩
    simp only [pack]
    rw [List.take_of_length_le (by simp; omega)]; simp
  | [a, b, c] =>
    have ha := hl a (by simp); have hb := hl b (by simp); have hcc := hl c (by simp)
    simp at hc
    refine ⟨_, by
      simp only [List.map, decLoop]
      rw [decStep0 ht cap k d a ha hk (by omega)]
      simp only [Res.bind_ok]
      rw [decStep1 ht cap (k + 1) ⟨d.done, a * 4⟩ a b hb (by omega) (by simp; omega) rfl]
      simp only [Res.bind_ok]
      rw [decStep2 ht cap (k + 1 + 1) ⟨_, b % 16 * 16⟩ (b % 16) c hcc (by omega) (by simp; omega) rfl]
      rfl, ?_⟩
    simp only [pack]
    rw [List.take_of_length_le (by simp; omega)]; simp
  | a :: b :: c :: e :: r =>
    have ha := hl a (by simp); have hb := hl b (by simp); have hcc := hl c (by simp); have he := hl e (by simp)
    simp at hc
    obtain ⟨d', h1, h2⟩ := decLoop_pack r (fun i hi => hl i (by simp [hi])) cap (k + 1 + 1 + 1 + 1) (by omega)
      ⟨d.done ++ [a * 4 + b / 16] ++ [b % 16 * 16 + c / 4] ++ [c % 4 * 64 + e], 0⟩ (by simp; omega)
    refine ⟨d', ?_, by rw [h2]; simp [pack]⟩
    simp only [List.map, decLoop]
    rw [decStep0 ht cap k d a ha hk (by omega)]
    simp only [Res.bind_ok]
    rw [decStep1 ht cap (k + 1) ⟨d.done, a * 4⟩ a b hb (by omega) (by simp; omega) rfl]
    simp only [Res.bind_ok]
    rw [decStep2 ht cap (k + 1 + 1) ⟨_, b % 16 * 16⟩ (b % 16) c hcc (by omega) (by simp; omega) rfl]
    simp only [Res.bind_ok]
    rw [decStep3 ht cap (k + 1 + 1 + 1) ⟨_, c % 4 * 64⟩ (c % 4) e he (by omega) (by simp; omega) rfl]
    simp only [Res.bind_ok]
    exact h1
termination_by l.length
end

/-- Encoding packed digits gives them back first, whatever follows. -/
theorem base64_pack (dig : Nat → Nat) (l : List Nat) (hl : ∀ i ∈ l, i < 64) (junk : Bytes) (hj : Bytes.Valid junk) :
    (Spec.base64 dig (fun _ => []) (pack l ++ junk)).take l.length = l.map dig := by
  match l with
  | [] => simp
  | [a] =>
    have ha := hl a (by simp)
    match junk with
    | [] => simp [pack, Spec.base64]; congr 1; omega
    | [x] =>
      have := hj x (by simp)
      simp [pack, Spec.base64]; congr 1; omega
    | x :: y :: r =>
      have := hj x (by simp); have := hj y (by simp)
      simp [pack, Spec.base64]; congr 1; omega
  | [a, b] =>
    have ha := hl a (by simp); have hb := hl b (by simp)
    match junk with
    | [] => simp [pack, Spec.base64]; constructor <;> congr 1 <;> omega
    | y :: r =>
      have := hj y (by simp)
      simp [pack, Spec.base64]; constructor <;> congr 1 <;> omega
  | [a, b, c] =>
    have ha := hl a (by simp); have hb := hl b (by simp); have hc := hl c (by simp)
    simp [pack, Spec.base64]; refine ⟨?_, ?_, ?_⟩ <;> congr 1 <;> omega
  | a :: b :: c :: d :: r =>
    have ha := hl a (by simp); have hb := hl b (by simp); have hc := hl c (by simp); have hd := hl d (by simp)
    have ih := base64_pack dig r (fun i hi => hl i (by simp [hi])) junk hj
    simp [pack, Spec.base64, ih]; refine ⟨?_, ?_, ?_, ?_⟩ <;> congr 1 <;> omega
termination_by l.length

theorem isTok_dig : ∀ c < 256, isTok c = true → ∃ i < 64, c = Spec.digitUrl i := by decide +kernel

theorem dig_isTok : ∀ i < 64, isTok (Spec.digitUrl i) = true := by decide +kernel

theorem isTok_lt {c : Nat} (h : isTok c = true) : c < 256 := by
  simp [isTok] at h; omega

theorem tok_digits (s : Bytes) (h : ∀ c ∈ s, isTok c = true) :
    ∃ l : List Nat, (∀ i ∈ l, i < 64) ∧ s = l.map Spec.digitUrl := by
  induction s with
  | nil => exact ⟨[], by simp, rfl⟩
  | cons c s ih =>
    obtain ⟨l, h1, h2⟩ := ih (fun x hx => h x (by simp [hx]))
    obtain ⟨i, h3, h4⟩ := isTok_dig c (isTok_lt (h c (by simp))) (h c (by simp))
    exact ⟨i :: l, by simpa [h3] using h1, by simp [h4, h2]⟩

end Imt.BinJson
