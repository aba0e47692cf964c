import Verif.Codebook.Num

/-! # Helper lemmas: filling the table -/

namespace Verif.Codebook
open Verif Verif.BitRead

theorem fold_set {v n : Nat} {f : Nat → Nat} {step : List Nat → Nat → Rust (List Nat)} {t : List Nat}
    (hstep : ∀ t' j, j < n → t'.length = t.length → step t' j = .ok (t'.set (f j) v))
    (hf : ∀ j, j < n → f j < t.length) :
    ∃ t', (List.range n).foldlM step t = .ok t' ∧ t'.length = t.length ∧
      (∀ j, j < n → t'[f j]? = some v) ∧ ∀ i, (∀ j, j < n → f j ≠ i) → t'[i]? = t[i]? := by
  induction n with
  | zero => exact ⟨t, rfl, rfl, by simp, by simp⟩
  | succ n ih =>
    obtain ⟨t', h1, h2, h3, h4⟩ := ih (fun t' j hj => hstep t' j (by omega)) (fun j hj => hf j (by omega))
    have hfn := hf n (by omega)
    refine ⟨t'.set (f n) v, ?_, by simpa using h2, ?_, ?_⟩
    · rw [List.range_succ, List.foldlM_append, h1]
      simp only [ok_bind, List.foldlM_cons, List.foldlM_nil, hstep t' n (by omega) h2, pure_eq_ok]
    · intro j hj
      by_cases hfj : f j = f n
      · rw [hfj, List.getElem?_set_self (by omega)]
      · rw [List.getElem?_set_ne (Ne.symm hfj)]
        exact h3 j (by have : j ≠ n := fun h => hfj (by rw [h]); omega)
    · intro i hi
      rw [List.getElem?_set_ne (hi n (by omega))]
      exact h4 i (fun j hj => hi j (by omega))

theorem shl32_ok {x n : Nat} (hn : n < 32) (hx : x * 2 ^ n < 2 ^ 32) : shl32 x n = .ok (x * 2 ^ n) := by
  rw [shl32, if_pos hn, Nat.shiftLeft_eq, Nat.mod_eq_of_lt hx]

theorem shl32_one {n : Nat} (hn : n < 32) : shl32 1 n = .ok (2 ^ n) := by
  have : 2 ^ n < 2 ^ 32 := Nat.pow_lt_pow_right (by omega) hn
  rw [shl32_ok hn (by omega), Nat.one_mul]

theorem setIdx_ok {l : List Nat} {i v : Nat} (h : i < l.length) : setIdx l i v = .ok (l.set i v) := by
  simp [setIdx, h]

theorem add32_ok {x y : Nat} (h : x + y < 2 ^ 32) : add32 x y = .ok (x + y) := if_pos h

theorem pow_le_1024 {w : Nat} (h : w ≤ 10) : 2 ^ w ≤ 1024 :=
  Nat.pow_le_pow_right (n := 2) (by omega) h

/-- A codeword of a leaf fills exactly the entries it is a prefix of. -/
theorem fillLut_leaf {m : Mode} {t : List Nat} {off code bits w s : Nat} (hb : bits ≤ w) (hw : w ≤ 10)
    (hc : code < 2 ^ bits) (hl : off + 2 ^ w ≤ t.length) :
    ∃ t', fillLut m t off code bits w s false = .ok t' ∧ t'.length = t.length ∧
      (∀ i, i < 2 ^ w → top m w bits i = code → t'[off + i]? = some (leafVal s bits)) ∧
      (∀ j, (∀ i, i < 2 ^ w → top m w bits i = code → off + i ≠ j) → t'[j]? = t[j]?) := by
  have hpow : 2 ^ w = 2 ^ bits * 2 ^ (w - bits) := by
    rw [← Nat.pow_add, show bits + (w - bits) = w by omega]
  have h1024 := pow_le_1024 hw
  have hpos := Nat.two_pow_pos (w - bits)
  have hposb := Nat.two_pow_pos bits
  cases m
  · have hfit : ∀ j, j < 2 ^ (w - bits) → code * 2 ^ (w - bits) + j < 2 ^ w := by
      intro j hj
      have : (code + 1) * 2 ^ (w - bits) ≤ 2 ^ bits * 2 ^ (w - bits) := Nat.mul_le_mul_right _ hc
      rw [Nat.add_mul] at this
      omega
    have h0 := hfit 0 hpos
    obtain ⟨t', a1, a2, a3, a4⟩ := fold_set (v := leafVal s bits) (n := 2 ^ (w - bits)) (t := t)
      (f := fun j => code * 2 ^ (w - bits) + j + off)
      (step := fun t j => do
        let i ← add32 (code * 2 ^ (w - bits)) j
        setIdx t (i + off) (leafVal s bits))
      (by
        intro t' j hj hl'
        have := hfit j hj
        simp only [add32_ok (show code * 2 ^ (w - bits) + j < 2 ^ 32 by omega), ok_bind]
        exact setIdx_ok (by omega))
      (by intro j hj; have := hfit j hj; omega)
    refine ⟨t', ?_, a2, ?_, ?_⟩
    · simp only [fillLut, fillLutMsb, usub_ok hb, shl32_one (show w - bits < 32 by omega),
        shl32_ok (show w - bits < 32 by omega) (show code * 2 ^ (w - bits) < 2 ^ 32 by omega), ok_bind]
      exact a1
    · intro i hi hti
      have := a3 (i % 2 ^ (w - bits)) (Nat.mod_lt _ hpos)
      simp only [top] at hti
      simp only [← hti] at this
      rwa [Nat.mul_comm, Nat.div_add_mod, Nat.add_comm] at this
    · intro j hj
      apply a4
      intro k hk heq
      refine hj (code * 2 ^ (w - bits) + k) (hfit k hk) ?_ (by omega)
      simp only [top]
      rw [Nat.mul_comm, Nat.mul_add_div hpos, Nat.div_eq_of_lt hk, Nat.add_zero]
  · have hfit : ∀ j, j < 2 ^ (w - bits) → code + j * 2 ^ bits < 2 ^ w := by
      intro j hj
      have : (j + 1) * 2 ^ bits ≤ 2 ^ (w - bits) * 2 ^ bits := Nat.mul_le_mul_right _ hj
      rw [Nat.mul_comm (2 ^ (w - bits)), ← hpow, Nat.add_mul] at this
      omega
    obtain ⟨t', a1, a2, a3, a4⟩ := fold_set (v := leafVal s bits) (n := 2 ^ (w - bits)) (t := t)
      (f := fun j => code + j * 2 ^ bits + off)
      (step := fun t j => do
        let s' ← shl32 j bits
        let i ← add32 code s'
        setIdx t (i + off) (leafVal s bits))
      (by
        intro t' j hj hl'
        have := hfit j hj
        simp only [shl32_ok (show bits < 32 by omega) (show j * 2 ^ bits < 2 ^ 32 by omega),
          add32_ok (show code + j * 2 ^ bits < 2 ^ 32 by omega), ok_bind]
        exact setIdx_ok (by omega))
      (by intro j hj; have := hfit j hj; omega)
    refine ⟨t', ?_, a2, ?_, ?_⟩
    · simp only [fillLut, fillLutLsb, usub_ok hb, shl32_one (show w - bits < 32 by omega),
        usub_ok (show w - bits ≤ w by omega), ok_bind]
      rw [show w - (w - bits) = bits by omega]
      exact a1
    · intro i hi hti
      have := a3 (i / 2 ^ bits) (Nat.div_lt_of_lt_mul (by rw [← hpow]; exact hi))
      simp only [top] at hti
      simp only [← hti] at this
      rwa [Nat.add_comm (i % 2 ^ bits), Nat.mul_comm, Nat.div_add_mod, Nat.add_comm] at this
    · intro j hj
      apply a4
      intro k hk heq
      refine hj (code + k * 2 ^ bits) (hfit k hk) ?_ (by omega)
      simp only [top]
      rw [Nat.add_mul_mod_self_right, Nat.mod_eq_of_lt hc]

theorem fillLut_esc {m : Mode} {t : List Nat} {off key bits w o : Nat} (h : off + key < t.length) :
    fillLut m t off key bits w o true = .ok (t.set (off + key) (escVal o bits)) := by
  rw [Nat.add_comm]
  cases m <;> simp [fillLut, fillLutMsb, fillLutLsb, setIdx_ok (show key + off < t.length by omega)]

theorem leafVal_eq {i b : Nat} (hi : i < 2 ^ 24) (hb : b < 256) : leafVal i b = i * 256 + b := by
  unfold leafVal
  have : i <<< 8 = i * 256 := by rw [Nat.shiftLeft_eq]
  rw [Nat.mod_eq_of_lt (by omega), ← Nat.shiftLeft_add_eq_or_of_lt (show b < 2 ^ 8 by omega)]
  omega

theorem escVal_eq {o b : Nat} (ho : o < 2 ^ 24) (hb : b < 128) : escVal o b = o * 256 + 128 + b := by
  unfold escVal
  have : o <<< 8 = o * 256 := by rw [Nat.shiftLeft_eq]
  have h1 : 0x80 ||| b = 128 + b := by
    have := Nat.shiftLeft_add_eq_or_of_lt (show b < 2 ^ 7 by omega) 1
    simpa using this.symm
  rw [Nat.mod_eq_of_lt (by omega), Nat.or_assoc, h1,
    ← Nat.shiftLeft_add_eq_or_of_lt (show 128 + b < 2 ^ 8 by omega)]
  omega

/-- Decoding of a leaf entry, as done by `read_cb`. -/
theorem leafVal_dec {i b : Nat} (hi : i < 2 ^ 24) (hb : b ≤ 10) :
    leafVal i b ≠ FILL ∧ leafVal i b &&& 0x7F = b ∧ ((leafVal i b &&& 0x80) != 0) = false ∧
      leafVal i b >>> 8 = i := by
  rw [leafVal_eq hi (by omega)]
  refine ⟨by unfold FILL; omega, ?_, ?_, ?_⟩
  · rw [Nat.and_two_pow_sub_one_eq_mod _ 7]; omega
  · have : (i * 256 + b) &&& 0x80 = 0 := by
      apply Nat.eq_of_testBit_eq
      intro k
      rw [Nat.testBit_and, show (0x80 : Nat) = 2 ^ 7 by rfl, Nat.testBit_two_pow]
      by_cases hk : 7 = k
      · subst hk
        simp [Nat.testBit_eq_decide_div_mod_eq]; omega
      · simp [hk]
    simp [this]
  · rw [Nat.shiftRight_eq_div_pow]; omega

/-- Decoding of an escape entry. -/
theorem escVal_dec {o b : Nat} (ho : o < 2 ^ 24) (hb : b ≤ 10) :
    escVal o b ≠ FILL ∧ escVal o b &&& 0x7F = b ∧ ((escVal o b &&& 0x80) != 0) = true ∧
      escVal o b >>> 8 = o := by
  rw [escVal_eq ho (by omega)]
  refine ⟨by unfold FILL; omega, ?_, ?_, ?_⟩
  · rw [Nat.and_two_pow_sub_one_eq_mod _ 7]; omega
  · have : ((o * 256 + 128 + b) &&& 0x80).testBit 7 = true := by
      rw [Nat.testBit_and]
      simp [Nat.testBit_eq_decide_div_mod_eq]; omega
    have h0 : (o * 256 + 128 + b) &&& 0x80 ≠ 0 := by
      intro h; rw [h] at this; simp at this
    simpa using h0
  · rw [Nat.shiftRight_eq_div_pow]; omega

end Verif.Codebook
