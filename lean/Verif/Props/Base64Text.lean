import Verif.Props.BinEnc
import Verif.Lemmas.BinTok
/-! # Base64 decoding of arbitrary text: C150 -/
namespace Imt.Props
open Imt Imt.Base64

theorem table64_val : ∀ c < 256, (mkTable chars64).getD c 0xFF = Spec.digitVal Spec.digit64 c := by decide +kernel
theorem tableUrl_val : ∀ c < 256, (mkTable charsUrl).getD c 0xFF = Spec.digitVal Spec.digitUrl c := by decide +kernel

section
variable {table : List Nat} {val : Nat → Nat} (ht : ∀ c < 256, table.getD c 0xFF = val c)
include ht

theorem decStep_any0 (cap k : Nat) (d : Dec) (z : Nat) (hz : z < 256) (hk : k % 4 = 0) (hc : d.done.length < cap) :
    decStep table cap k d z = .ok ⟨d.done, val z * 4 % 256⟩ := by
  unfold decStep
  simp only [and3, hk, ht z hz, Dec.guard, if_pos hc, Res.bind_ok, Res.pure_eq, Nat.shiftLeft_eq]

theorem decStep_any1 (cap k : Nat) (d : Dec) (z : Nat) (hz : z < 256) (hk : k % 4 = 1) (hc : d.done.length + 1 < cap) :
    decStep table cap k d z = .ok ⟨d.done ++ [d.cur ||| (val z / 16)], val z * 16 % 256⟩ := by
  unfold decStep
  simp only [and3, hk, ht z hz, Dec.guard, if_pos (show d.done.length < cap by omega), Res.bind_ok, Res.pure_eq,
    Nat.shiftLeft_eq, Nat.shiftRight_eq_div_pow, List.length_append, List.length_singleton, if_pos hc]

theorem decStep_any2 (cap k : Nat) (d : Dec) (z : Nat) (hz : z < 256) (hk : k % 4 = 2) (hc : d.done.length + 1 < cap) :
    decStep table cap k d z = .ok ⟨d.done ++ [d.cur ||| (val z / 4)], val z * 64 % 256⟩ := by
  unfold decStep
  simp only [and3, hk, ht z hz, Dec.guard, if_pos (show d.done.length < cap by omega), Res.bind_ok, Res.pure_eq,
    Nat.shiftLeft_eq, Nat.shiftRight_eq_div_pow, List.length_append, List.length_singleton, if_pos hc]

theorem decStep_any3 (cap k : Nat) (d : Dec) (z : Nat) (hz : z < 256) (hk : k % 4 = 3) (hc : d.done.length < cap) :
    decStep table cap k d z = .ok ⟨d.done ++ [d.cur ||| val z], 0⟩ := by
  unfold decStep
  simp only [and3, hk, ht z hz, Dec.guard, if_pos hc, Res.bind_ok, Res.pure_eq]

theorem decLoop_groups (s : Bytes) (hv : Bytes.Valid s) (cap k : Nat) (hk : k % 4 = 0) (d : Dec)
    (hc : d.done.length + s.length < cap) :
    ∃ d', decLoop table cap k d s = .ok d' ∧ d'.done = d.done ++ Spec.readGroups val s := by
  match s with
  | [] => exact ⟨d, rfl, by simp [Spec.readGroups]⟩
  | [a] =>
    have ha := hv a (by simp)
    simp at hc
    refine ⟨_, by
      simp only [decLoop]
      rw [decStep_any0 ht cap k d a ha hk (by omega)]
      rfl, by simp [Spec.readGroups]⟩
  | [a, b] =>
    have ha := hv a (by simp); have hb := hv b (by simp)
    simp at hc
    refine ⟨_, by
      simp only [decLoop]
      rw [decStep_any0 ht cap k d a ha hk (by omega)]
      simp only [Res.bind_ok]
      rw [decStep_any1 ht cap (k + 1) _ b hb (by omega) (by simp; omega)]
      rfl, by simp [Spec.readGroups]⟩
  | [a, b, c] =>
    have ha := hv a (by simp); have hb := hv b (by simp); have hcc := hv c (by simp)
    simp at hc
    refine ⟨_, by
      simp only [decLoop]
      rw [decStep_any0 ht cap k d a ha hk (by omega)]
      simp only [Res.bind_ok]
      rw [decStep_any1 ht cap (k + 1) _ b hb (by omega) (by simp; omega)]
      simp only [Res.bind_ok]
      rw [decStep_any2 ht cap (k + 1 + 1) _ c hcc (by omega) (by simp; omega)]
      rfl, by simp [Spec.readGroups]⟩
  | a :: b :: c :: e :: r =>
    have ha := hv a (by simp); have hb := hv b (by simp); have hcc := hv c (by simp); have he := hv e (by simp)
    simp at hc
    obtain ⟨d', h1, h2⟩ := decLoop_groups r (fun i hi => hv i (by simp [hi])) cap (k + 1 + 1 + 1 + 1) (by omega)
      ⟨d.done ++ [(val a * 4 % 256) ||| (val b / 16)] ++ [(val b * 16 % 256) ||| (val c / 4)] ++
        [(val c * 64 % 256) ||| val e], 0⟩ (by simp; omega)
    refine ⟨d', ?_, by rw [h2]; simp [Spec.readGroups]⟩
    simp only [decLoop]
    rw [decStep_any0 ht cap k d a ha hk (by omega)]
    simp only [Res.bind_ok]
    rw [decStep_any1 ht cap (k + 1) _ b hb (by omega) (by simp; omega)]
    simp only [Res.bind_ok]
    rw [decStep_any2 ht cap (k + 1 + 1) _ c hcc (by omega) (by simp; omega)]
    simp only [Res.bind_ok]
    rw [decStep_any3 ht cap (k + 1 + 1 + 1) _ e he (by omega) (by simp; omega)]
    simp only [Res.bind_ok]
    exact h1
termination_by s.length

theorem decodeCommon_groups (s : Bytes) (hv : Bytes.Valid s) (len finlen : Nat) (hl : len ≤ s.length)
    (hf : finlen = len * 3 / 4) (hlen : (Spec.readGroups val (s.take len)).length = finlen) :
    decodeCommon table len finlen s = .ok (Spec.readGroups val (s.take len)) := by
  have hvt : Bytes.Valid (s.take len) := fun x hx => hv x (List.mem_of_mem_take hx)
  obtain ⟨d, h1, h2⟩ := decLoop_groups ht (s.take len) hvt (len + 1) 0 rfl ⟨[], 0⟩ (by simp [List.length_take]; omega)
  unfold decodeCommon
  rw [h1]
  simp only [Res.bind_ok]
  rw [List.nil_append] at h2
  rw [h2, if_neg (by omega), if_neg (by omega), List.take_of_length_le (by omega)]
end

theorem readGroups_length (val : Nat → Nat) : ∀ s : Bytes, (Spec.readGroups val s).length = s.length * 3 / 4
  | [] => rfl
  | [_] => by simp [Spec.readGroups]
  | [_, _] => by simp [Spec.readGroups]
  | [_, _, _] => by simp [Spec.readGroups]
  | a :: b :: c :: d :: r => by
    simp only [Spec.readGroups, List.length_append, readGroups_length val r, List.length_cons, List.length_nil]
    omega

/-- C150 (base64url): what the decoder makes of any text at all. A character outside the alphabet is read as eight ones,
so it also changes the bits of the character before it. -/
theorem C150_url (s : Bytes) (hv : Bytes.Valid s) :
    decodeUrl s = .ok (Spec.readGroups (Spec.digitVal Spec.digitUrl) s) := by
  unfold decodeUrl
  have := decodeCommon_groups tableUrl_val s hv s.length (s.length * 3 / 4) (Nat.le_refl _) rfl
    (by rw [readGroups_length, List.take_length])
  rwa [List.take_length] at this

theorem unpad_eq (s : Bytes) (h : 2 ≤ s.length) :
    ∃ s1 s2, s1 = (if s.getD (s.length - 1) 0 = 0x3D then 1 else 0) ∧
      s2 = (if s.getD (s.length - s1 - 1) 0 = 0x3D then 1 else 0) ∧
      Spec.unpad s = s.take (s.length - s1 - s2) := by
  refine ⟨_, _, rfl, rfl, ?_⟩
  have hl : s.getLast? = some 0x3D ↔ s.getD (s.length - 1) 0 = 0x3D := by
    rw [List.getLast?_eq_getElem?, List.getD_eq_getElem?_getD, List.getElem?_eq_getElem (by omega)]
    simp
  have hl2 : s.dropLast.getLast? = some 0x3D ↔ s.getD (s.length - 1 - 1) 0 = 0x3D := by
    rw [List.getLast?_eq_getElem?, List.getD_eq_getElem?_getD, List.length_dropLast, List.getElem?_dropLast,
      if_pos (by omega), List.getElem?_eq_getElem (by omega)]
    simp
  unfold Spec.unpad
  by_cases h1 : s.getD (s.length - 1) 0 = 0x3D
  · rw [if_pos (hl.2 h1), if_pos h1]
    by_cases h2 : s.getD (s.length - 1 - 1) 0 = 0x3D
    · rw [if_pos (hl2.2 h2), if_pos h2, List.dropLast_eq_take, List.dropLast_eq_take, List.length_take, List.take_take]
      congr 1; omega
    · rw [if_neg (fun x => h2 (hl2.1 x)), if_neg h2, List.dropLast_eq_take]; rfl
  · rw [if_neg (fun x => h1 (hl.1 x)), if_neg h1, Nat.sub_zero, if_neg h1, Nat.sub_zero, List.take_length]

/-- C150 (base64): what the decoder makes of any text at all. A text whose length is no multiple of four gives the empty
string. -/
theorem C150_base64 (s : Bytes) (hv : Bytes.Valid s) :
    decode64 s = .ok (if s.length % 4 = 0 then Spec.readGroups (Spec.digitVal Spec.digit64) (Spec.unpad s) else []) := by
  unfold decode64
  simp only [and3]
  by_cases h0 : s.length = 0
  · have : s = [] := List.eq_nil_of_length_eq_zero h0
    subst this; rfl
  by_cases h4 : s.length % 4 = 0
  · rw [if_neg (by omega), if_pos h4]
    obtain ⟨s1, s2, e1, e2, e3⟩ := unpad_eq s (by omega)
    rw [← e1, ← e2, e3]
    have b1 : s1 = 0 ∨ s1 = 1 := by rw [e1]; split <;> omega
    have b2 : s2 = 0 ∨ s2 = 1 := by rw [e2]; split <;> omega
    clear e1 e2 e3
    refine decodeCommon_groups table64_val s hv _ _ (by omega) (by omega) ?_
    rw [readGroups_length, List.length_take]
    omega
  · rw [if_pos (by omega), if_neg h4]

example : Bytes.Valid (ascii "SGV!bG8=") ∧ Spec.unpad (ascii "SGV!bG8=") = ascii "SGV!bG8" ∧
    decode64 (ascii "SGV!bG8=") = .ok (ascii "He" ++ [0xFF] ++ ascii "lo") := by decide +kernel

theorem digitVal_64 : ∀ i < 64, Spec.digitVal Spec.digit64 (Spec.digit64 i) = i := by decide +kernel
theorem digitVal_url : ∀ i < 64, Spec.digitVal Spec.digitUrl (Spec.digitUrl i) = i := by decide +kernel

theorem readGroups_digits (dig : Nat → Nat) (hd : ∀ i < 64, Spec.digitVal dig (dig i) = i) (pad : Nat → Bytes) :
    ∀ (l : List Nat), (∀ i ∈ l, i < 64) → l.length % 4 = 0 →
      Bytes.Valid (Spec.readGroups (Spec.digitVal dig) (l.map dig)) ∧
      Spec.base64 dig pad (Spec.readGroups (Spec.digitVal dig) (l.map dig)) = l.map dig
  | [], _, _ => by simp [Spec.readGroups, Spec.base64, Bytes.Valid]
  | [_], _, h => by simp at h
  | [_, _], _, h => by simp at h
  | [_, _, _], _, h => by simp at h
  | a :: b :: c :: d :: r, hl, h => by
    have ha := hl a (by simp); have hb := hl b (by simp); have hc := hl c (by simp); have he := hl d (by simp)
    obtain ⟨ih1, ih2⟩ := readGroups_digits dig hd pad r (fun i hi => hl i (by simp [hi])) (by simp at h; omega)
    have q1 : (a * 4 % 256) ||| (b / 16) = a * 4 + b / 16 := by
      rw [Nat.mod_eq_of_lt (by omega)]; exact or_lo a (b / 16) 2 (by omega)
    have q2 : (b * 16 % 256) ||| (c / 4) = b % 16 * 16 + c / 4 := by
      rw [show b * 16 % 256 = b % 16 * 2 ^ 4 by omega]; exact or_lo (b % 16) (c / 4) 4 (by omega)
    have q3 : (c * 64 % 256) ||| d = c % 4 * 64 + d := by
      rw [show c * 64 % 256 = c % 4 * 2 ^ 6 by omega]; exact or_lo (c % 4) d 6 (by omega)
    simp only [List.map_cons, Spec.readGroups, hd _ ha, hd _ hb, hd _ hc, hd _ he, q1, q2, q3]
    refine ⟨?_, ?_⟩
    · intro x hx
      simp only [List.mem_append, List.mem_cons, List.not_mem_nil, or_false] at hx
      rcases hx with (rfl | rfl | rfl) | hx
      · omega
      · omega
      · omega
      · exact ih1 x hx
    · simp only [List.cons_append, List.nil_append, Spec.base64, ih2, List.cons.injEq, and_true]
      refine ⟨?_, ?_, ?_, ?_⟩ <;> congr 1 <;> omega

/-- C150 on texts of whole groups of characters of the alphabet: encoding what was decoded gives the text again, so
different texts have different contents. Missing: other texts, where both fails (`C150_violation_*`). -/
theorem C150_canonical_partial (l : List Nat) (hl : ∀ i ∈ l, i < 64) (h4 : l.length % 4 = 0) :
    (∃ out, decode64 (l.map Spec.digit64) = .ok out ∧ encode64 out = .ok (l.map Spec.digit64)) ∧
    (∃ out, decodeUrl (l.map Spec.digitUrl) = .ok out ∧ encodeUrl out = .ok (l.map Spec.digitUrl)) := by
  have v64 : ∀ i < 64, Spec.digit64 i < 256 ∧ Spec.digit64 i ≠ 0x3D := by decide +kernel
  have vurl : ∀ i < 64, Spec.digitUrl i < 256 := by decide +kernel
  refine ⟨?_, ?_⟩
  · have hv : Bytes.Valid (l.map Spec.digit64) := by
      intro x hx
      obtain ⟨i, hi, rfl⟩ := List.mem_map.1 hx
      exact (v64 i (hl i hi)).1
    have hu : Spec.unpad (l.map Spec.digit64) = l.map Spec.digit64 := by
      unfold Spec.unpad
      rw [if_neg]
      intro hx
      obtain ⟨i, hi, e⟩ := List.mem_map.1 (List.mem_of_getLast? hx)
      exact (v64 i (hl i hi)).2 e
    obtain ⟨h1, h2⟩ := readGroups_digits Spec.digit64 digitVal_64 (fun n => if true then List.replicate n 0x3D else []) l hl h4
    refine ⟨_, C150_base64 _ hv, ?_⟩
    rw [List.length_map, if_pos h4, hu]
    exact (encodeCore_eq lookup64 true _ h1).trans (congrArg _ h2)
  · have hv : Bytes.Valid (l.map Spec.digitUrl) := by
      intro x hx
      obtain ⟨i, hi, rfl⟩ := List.mem_map.1 hx
      exact vurl i (hl i hi)
    obtain ⟨h1, h2⟩ := readGroups_digits Spec.digitUrl digitVal_url (fun n => if false then List.replicate n 0x3D else []) l hl h4
    exact ⟨_, C150_url _ hv, (encodeCore_eq lookupUrl false _ h1).trans (congrArg _ h2)⟩

example : (∀ i ∈ [18, 6, 21, 50], i < 64) ∧ [18, 6, 21, 50].length % 4 = 0 ∧
    [18, 6, 21, 50].map Spec.digit64 = ascii "SGVy" := by decide +kernel

/-- C150 is violated by unused bits: the last character of a text with padding can be changed without changing the
content, so two different texts (of a JWT signature, say) are the same data. -/
theorem C150_violation_bits : decode64 (ascii "QQ==") = .ok (ascii "A") ∧ decode64 (ascii "QR==") = .ok (ascii "A") ∧
    decodeUrl (ascii "QQ") = .ok (ascii "A") ∧ decodeUrl (ascii "QR") = .ok (ascii "A") := by decide +kernel

/-- C150 is violated by characters outside the alphabet: they are not reported, they decode to other data, and change the
bits of their neighbour (`A!AA` reads as 0x0F 0xF0 0x00). -/
theorem C150_violation_characters : decode64 (ascii "!?*~") = .ok [0xFF, 0xFF, 0xFF] ∧
    decode64 (ascii "A!AA") = .ok [0x0F, 0xF0, 0x00] := by decide +kernel

/-- C150 is violated by the length: a truncated base64 text is the empty string, a base64url text with one character too
many loses it. -/
theorem C150_violation_length (s : Bytes) (hv : Bytes.Valid s) (h : s.length % 4 ≠ 0) (c : Nat) (hc : c < 256) (t : Bytes)
    (ht : Bytes.Valid t) (h4 : t.length % 4 = 0) :
    decode64 s = .ok [] ∧ decodeUrl (t ++ [c]) = decodeUrl t := by
  refine ⟨by rw [C150_base64 s hv, if_neg h], ?_⟩
  rw [C150_url _ ht, C150_url]
  · have : ∀ (t : Bytes), t.length % 4 = 0 → Spec.readGroups (Spec.digitVal Spec.digitUrl) (t ++ [c]) =
        Spec.readGroups (Spec.digitVal Spec.digitUrl) t := by
      intro t
      induction t using Spec.readGroups.induct with
      | case1 a b e d r ih => intro h; simp only [List.cons_append, Spec.readGroups]; rw [ih (by simp at h; omega)]
      | case2 a b e => intro h; simp at h
      | case3 a b => intro h; simp at h
      | case4 x h1 h2 h3 =>
        intro h
        match x with
        | [] => rfl
        | [_] => simp at h
        | [a, b] => exact absurd rfl (h3 a b)
        | [a, b, c] => exact absurd rfl (h2 a b c)
        | a :: b :: c :: d :: r => exact absurd rfl (h1 a b c d r)
    rw [this t h4]
  · intro x hx
    rcases List.mem_append.1 hx with h | h
    · exact ht x h
    · rw [List.mem_singleton.1 h]; exact hc

example : Bytes.Valid (ascii "SGVsbG") ∧ (ascii "SGVsbG").length % 4 ≠ 0 ∧ Bytes.Valid (ascii "SGVs") ∧
    (ascii "SGVs").length % 4 = 0 := by decide +kernel

end Imt.Props
