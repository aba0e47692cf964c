import Verif.BitRead.Spec
import Verif.Bytes.Lemmas

/-! # Helper lemmas: representation invariant of the bit readers -/

namespace Verif.BitRead
open Verif Verif.Bytes

/-- Bit `j` of the cache in reading order. -/
def cacheBit (e : Endian) (c : BitVec 64) (j : Nat) : Bool :=
  match e with
  | .le => c.getLsbD j
  | .be => c.getMsbD j

/-- Reading order index of result bit `i` of an `n`-bit read. -/
def ridx (e : Endian) (n i : Nat) : Nat :=
  match e with
  | .le => i
  | .be => n - 1 - i

theorem cacheBit_ge (e : Endian) (c : BitVec 64) {j : Nat} (h : 64 ≤ j) : cacheBit e c j = false := by
  cases e
  · exact BitVec.getLsbD_of_ge _ _ h
  · exact BitVec.getMsbD_of_ge _ _ h

theorem checkedShl_small (x : BitVec 64) {n : Nat} (h : n ≤ 64) : checkedShl x n = x <<< n := by
  unfold checkedShl
  rw [Nat.mod_eq_of_lt (by omega)]
  split
  · rfl
  · have : n = 64 := by omega
    subst this
    simp

theorem checkedShr_small (x : BitVec 64) {n : Nat} (h : n ≤ 64) : checkedShr x n = x >>> n := by
  unfold checkedShr
  rw [Nat.mod_eq_of_lt (by omega)]
  split
  · rfl
  · have : n = 64 := by omega
    subst this
    apply BitVec.eq_of_getLsbD_eq
    intro i hi
    simp only [BitVec.getLsbD_ushiftRight]
    rw [BitVec.getLsbD_of_ge x _ (by omega)]
    simp

theorem cacheBit_skipRem (e : Endian) (r : Reader) {n : Nat} (h : n ≤ 64) (j : Nat) :
    cacheBit e (skipRem e r n).cache j = cacheBit e r.cache (j + n) := by
  cases e
  · simp only [cacheBit, skipRem, checkedShr_small _ h, BitVec.getLsbD_ushiftRight, Nat.add_comm]
  · simp only [cacheBit, skipRem, checkedShl_small _ h, BitVec.getMsbD_shiftLeft]

@[simp] theorem skipRem_left (e : Endian) (r : Reader) (n : Nat) :
    (skipRem e r n).left = r.left - n := by cases e <;> rfl
@[simp] theorem skipRem_index (e : Endian) (r : Reader) (n : Nat) :
    (skipRem e r n).index = r.index := by cases e <;> rfl
@[simp] theorem skipRem_buffer (e : Endian) (r : Reader) (n : Nat) :
    (skipRem e r n).buffer = r.buffer := by cases e <;> rfl

theorem mask_getLsbD {n : Nat} (h : n ≤ 64) (i : Nat) :
    (checkedShl 1 n - 1 : BitVec 64).getLsbD i = (decide (i < n) && decide (i < 64)) := by
  rw [checkedShl_small _ h]
  by_cases hi : i < 64
  · by_cases hn : n = 64
    · subst hn
      have : (1#64 <<< 64 - 1#64) = BitVec.allOnes 64 := by decide
      show (1#64 <<< 64 - 1#64).getLsbD i = _
      rw [this, BitVec.getLsbD_allOnes]
      simp [hi]
    · have hn : n < 64 := by omega
      have hp : 2 ^ n < 2 ^ 64 := Nat.pow_lt_pow_right (by decide) hn
      have hp0 : 0 < 2 ^ n := Nat.two_pow_pos n
      have ht : (1#64 <<< n - 1#64).toNat = 2 ^ n - 1 := by
        rw [BitVec.toNat_sub, BitVec.toNat_shiftLeft, Nat.shiftLeft_eq]
        simp only [BitVec.toNat_ofNat]
        rw [Nat.mod_eq_of_lt (by omega : 1 < 2 ^ 64), Nat.one_mul, Nat.mod_eq_of_lt hp]
        omega
      show (1#64 <<< n - 1#64).getLsbD i = _
      rw [BitVec.getLsbD, ht, Nat.testBit_two_pow_sub_one]
      simp [hi]
  · rw [BitVec.getLsbD_of_ge _ _ (by omega)]
    simp [hi]

theorem peekVal_spec (e : Endian) (r : Reader) {n : Nat} (h : n ≤ 64) :
    ∃ v, peekVal e r n = .ok v ∧
      ∀ i, v.getLsbD i = (decide (i < n) && cacheBit e r.cache (ridx e n i)) := by
  cases e
  · refine ⟨_, rfl, ?_⟩
    intro i
    simp only [BitVec.getLsbD_and, mask_getLsbD h, cacheBit, ridx]
    by_cases hi : i < 64
    · simp [hi, Bool.and_comm]
    · simp [hi, BitVec.getLsbD_of_ge _ i (Nat.le_of_not_lt hi)]
  · refine ⟨_, by simp only [peekVal]; rw [Nat.mod_eq_of_lt (by omega), usub_ok h]; rfl, ?_⟩
    intro i
    simp only [checkedShr_small _ (show 64 - n ≤ 64 by omega), BitVec.getLsbD_ushiftRight, cacheBit, ridx]
    by_cases hi : i < n
    · rw [BitVec.getLsbD_eq_getMsbD]
      have h1 : 64 - n + i < 64 := by omega
      have h2 : 64 - 1 - (64 - n + i) = n - 1 - i := by omega
      simp [hi, h1, h2]
    · simp only [hi, decide_false, Bool.false_and]
      exact BitVec.getLsbD_of_ge _ _ (by omega)

theorem getVal_spec (e : Endian) (r : Reader) {n : Nat} (h : n ≤ 64) :
    ∃ v, getVal e r n = .ok (v, skipRem e r n) ∧
      ∀ i, v.getLsbD i = (decide (i < n) && cacheBit e r.cache (ridx e n i)) := by
  obtain ⟨v, h1, h2⟩ := peekVal_spec e r h
  exact ⟨v, by simp [getVal, h1], h2⟩

/-! ### refills -/

theorem getD_take_drop (buf : List U8) (k o i : Nat) (h : i < k) :
    ((buf.drop o).take k).getD i 0 = buf.getD (o + i) 0 := by
  simp [List.getD_eq_getElem?_getD, h]

theorem fromBe_getMsbD (k : Nat) (bs : List U8) (hl : bs.length = k) (j : Nat) (hj : j < 8 * k) :
    (fromBe (8 * k) bs).getMsbD j = (bs.getD (j / 8) 0).getMsbD (j % 8) := by
  rw [fromBe_eq, BitVec.getMsbD_eq_getLsbD, fromLe_getLsbD]
  have h1 : (8 * k - 1 - j) / 8 = k - 1 - j / 8 := by omega
  have h2 : (8 * k - 1 - j) % 8 = 7 - j % 8 := by omega
  have h3 : k - 1 - j / 8 < bs.reverse.length := by simp; omega
  have h4 : bs.length - 1 - (k - 1 - j / 8) = j / 8 := by omega
  have h5 : j / 8 < bs.length := by omega
  have h6 : j % 8 < 8 := by omega
  rw [h1, h2, BitVec.getMsbD_eq_getLsbD]
  simp only [List.getD_eq_getElem?_getD, List.getElem?_eq_getElem h3, Option.getD_some,
    List.getElem_reverse, h4, List.getElem?_eq_getElem h5]
  simp [hj, h6]
  omega

theorem get_k_le (buf : List U8) (o k : Nat) (h : o + k ≤ buf.length) :
    ((buf.drop o).take k).length = k := by simp; omega

/-- 64 fresh bits. -/
theorem fill64_spec (e : Endian) (r : Reader) (h : canRefill r = true) :
    ∃ c, fill64 e r = .ok c ∧ ∀ j, j < 64 → cacheBit e c j = bit e r.buffer (8 * r.index + j) := by
  have h : r.index + 8 ≤ r.buffer.length := by simpa [canRefill] using h
  have hd : 8 ≤ (r.buffer.drop r.index).length := by simp; omega
  cases e
  · refine ⟨fromLe 64 ((r.buffer.drop r.index).take 8), ?_, ?_⟩
    · simp only [fill64, sliceFrom_ok (show r.index ≤ r.buffer.length by omega), ok_bind, get_u64l_eq,
        getGen, if_pos hd]
    · intro j hj
      simp only [cacheBit, bit, fromLe_getLsbD]
      rw [getD_take_drop _ _ _ _ (by omega)]
      simp only [hj, decide_true, Bool.true_and]
      rw [show (8 * r.index + j) / 8 = r.index + j / 8 by omega,
        show (8 * r.index + j) % 8 = j % 8 by omega]
  · refine ⟨fromBe 64 ((r.buffer.drop r.index).take 8), ?_, ?_⟩
    · simp only [fill64, sliceFrom_ok (show r.index ≤ r.buffer.length by omega), ok_bind, get_u64b_eq,
        getGen, if_pos hd]
    · intro j hj
      simp only [cacheBit, bit]
      rw [fromBe_getMsbD 8 _ (get_k_le _ _ _ h) j (by omega), getD_take_drop _ _ _ _ (by omega)]
      rw [show (8 * r.index + j) / 8 = r.index + j / 8 by omega,
        show (8 * r.index + j) % 8 = j % 8 by omega]

theorem fill32_spec (e : Endian) (r : Reader) (h : canRefill r = true) :
    ∃ c : BitVec 32, fill32 e r = .ok (c.setWidth 64) ∧ ∀ j, j < 32 →
      (match e with | .le => c.getLsbD j | .be => c.getMsbD j) = bit e r.buffer (8 * r.index + j) := by
  have h : r.index + 8 ≤ r.buffer.length := by simpa [canRefill] using h
  have hd : 4 ≤ (r.buffer.drop r.index).length := by simp; omega
  cases e
  · refine ⟨fromLe 32 ((r.buffer.drop r.index).take 4), ?_, ?_⟩
    · simp only [fill32, sliceFrom_ok (show r.index ≤ r.buffer.length by omega), ok_bind, get_u32l_eq,
        getGen, if_pos hd, pure_eq_ok]
    · intro j hj
      simp only [bit, fromLe_getLsbD]
      rw [getD_take_drop _ _ _ _ (by omega)]
      simp only [hj, decide_true, Bool.true_and]
      rw [show (8 * r.index + j) / 8 = r.index + j / 8 by omega,
        show (8 * r.index + j) % 8 = j % 8 by omega]
  · refine ⟨fromBe 32 ((r.buffer.drop r.index).take 4), ?_, ?_⟩
    · simp only [fill32, sliceFrom_ok (show r.index ≤ r.buffer.length by omega), ok_bind, get_u32b_eq,
        getGen, if_pos hd, pure_eq_ok]
    · intro j hj
      simp only [bit]
      rw [fromBe_getMsbD 4 _ (get_k_le _ _ _ (by omega)) j (by omega), getD_take_drop _ _ _ _ (by omega)]
      rw [show (8 * r.index + j) / 8 = r.index + j / 8 by omega,
        show (8 * r.index + j) % 8 = j % 8 by omega]

theorem buildCache_spec (e : Endian) (c : BitVec 64) (v : BitVec 32) {left : Nat} (h : left ≤ 32) :
    ∃ c', buildCache e c (v.setWidth 64) left = .ok c' ∧ ∀ j, j < 64 →
      cacheBit e c' j = (cacheBit e c j || (decide (left ≤ j) && decide (j - left < 32) &&
        (match e with | .le => v.getLsbD (j - left) | .be => v.getMsbD (j - left)))) := by
  cases e
  · refine ⟨_, by simp only [buildCache, shlPanic, if_pos (show left < 64 by omega), ok_bind, pure_eq_ok]; rfl, ?_⟩
    intro j hj
    simp only [cacheBit, BitVec.getLsbD_or, BitVec.getLsbD_shiftLeft, BitVec.getLsbD_setWidth]
    by_cases h1 : left ≤ j
    · by_cases h2 : j - left < 32
      · simp [h1, h2, hj, Nat.not_lt.mpr h1, show j - left < 64 by omega]
      · simp [h2, BitVec.getLsbD_of_ge v (j - left) (by omega)]
    · simp [h1, show j < left by omega]
  · refine ⟨_, by simp only [buildCache, usub_ok h, shlPanic, if_pos (show 32 - left < 64 by omega),
      ok_bind, pure_eq_ok]; rfl, ?_⟩
    intro j hj
    simp only [cacheBit, BitVec.getMsbD_or, BitVec.getMsbD_shiftLeft]
    by_cases h1 : left ≤ j
    · by_cases h2 : j - left < 32
      · have e2 : j + (32 - left) < 64 := by omega
        have e1 : 64 - 1 - (j + (32 - left)) = 32 - 1 - (j - left) := by omega
        simp only [BitVec.getMsbD_eq_getLsbD, e2, e1, BitVec.getLsbD_setWidth]
        simp [h1, h2, show 32 - 1 - (j - left) < 64 by omega]
      · simp [h2, BitVec.getMsbD_of_ge (v.setWidth 64) (j + (32 - left)) (by omega)]
    · have e2 : j + (32 - left) < 64 := by omega
      simp only [h1, decide_false, Bool.false_and, Bool.or_false]
      rw [BitVec.getMsbD_eq_getLsbD (BitVec.setWidth 64 v), BitVec.getLsbD_setWidth,
        BitVec.getLsbD_of_ge v _ (by omega)]
      simp

end Verif.BitRead
