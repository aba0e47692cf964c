import Verif.Codebook.Spec
import Verif.BitRead.Props

/-! # Helper lemmas: first and last bits of a number in reading order -/

namespace Verif.Codebook
open Verif Verif.BitRead

/-- First `w` of the `v` bits of `i`, in reading order. -/
def top (m : Mode) (v w i : Nat) : Nat :=
  match m with
  | .msb => i / 2 ^ (v - w)
  | .lsb => i % 2 ^ w

/-- The `v` bits of `i` without the first `w`. -/
def rest (m : Mode) (v w i : Nat) : Nat :=
  match m with
  | .msb => i % 2 ^ (v - w)
  | .lsb => i / 2 ^ w

theorem top_lt {m : Mode} {v w i : Nat} (h : i < 2 ^ v) (hw : w ≤ v) : top m v w i < 2 ^ w := by
  cases m
  · unfold top
    apply Nat.div_lt_of_lt_mul
    rwa [← Nat.pow_add, show v - w + w = v by omega]
  · exact Nat.mod_lt _ (Nat.two_pow_pos w)

theorem rest_lt {m : Mode} {v w i : Nat} (h : i < 2 ^ v) (hw : w ≤ v) :
    rest m v w i < 2 ^ (v - w) := by
  cases m
  · exact Nat.mod_lt _ (Nat.two_pow_pos _)
  · unfold rest
    apply Nat.div_lt_of_lt_mul
    rwa [← Nat.pow_add, show w + (v - w) = v by omega]

theorem top_self {m : Mode} {v i : Nat} (h : i < 2 ^ v) : top m v v i = i := by
  cases m
  · simp [top]
  · simp [top, Nat.mod_eq_of_lt h]

theorem top_top {m : Mode} {v w u i : Nat} (h1 : u ≤ w) (h2 : w ≤ v) :
    top m w u (top m v w i) = top m v u i := by
  cases m
  · simp only [top]
    rw [Nat.div_div_eq_div_mul, ← Nat.pow_add, show v - w + (w - u) = v - u by omega]
  · simp only [top]
    exact Nat.mod_mod_of_dvd _ (Nat.pow_dvd_pow 2 h1)

theorem rest_top {m : Mode} {v w u i : Nat} (h1 : u ≤ w) (h2 : w ≤ v) :
    rest m w u (top m v w i) = top m (v - u) (w - u) (rest m v u i) := by
  cases m
  · simp only [top, rest]
    rw [show v - u - (w - u) = v - w by omega, show v - u = (v - w) + (w - u) by omega, Nat.pow_add,
      Nat.mod_mul_right_div_self]
  · simp only [top, rest]
    rw [show w = u + (w - u) by omega, Nat.pow_add, Nat.mod_mul_right_div_self,
      show u + (w - u) - u = w - u by omega]

theorem split_ext {m : Mode} {v w i j : Nat} (h1 : top m v w i = top m v w j)
    (h2 : rest m v w i = rest m v w j) : i = j := by
  cases m
  · simp only [top, rest] at h1 h2
    rw [← Nat.div_add_mod i (2 ^ (v - w)), ← Nat.div_add_mod j (2 ^ (v - w)), h1, h2]
  · simp only [top, rest] at h1 h2
    rw [← Nat.div_add_mod i (2 ^ w), ← Nat.div_add_mod j (2 ^ w), h1, h2]

theorem top_valueAt (m : Mode) (buf : List U8) (p : Nat) {v w : Nat} (h : w ≤ v) :
    top m v w (valueAt (endianOf m) buf p v) = valueAt (endianOf m) buf p w := by
  obtain ⟨d, rfl⟩ : ∃ d, v = w + d := ⟨v - w, by omega⟩
  rw [valueAt_add]
  have h1 := valueAt_lt (endianOf m) buf p w
  have h2 := valueAt_lt (endianOf m) buf (p + w) d
  cases m
  · simp only [top, endianOf] at *
    rw [show w + d - w = d by omega, Nat.mul_comm, Nat.mul_add_div (Nat.two_pow_pos d),
      Nat.div_eq_of_lt h2, Nat.add_zero]
  · simp only [top, endianOf] at *
    rw [Nat.add_mul_mod_self_left, Nat.mod_eq_of_lt h1]

theorem rest_valueAt (m : Mode) (buf : List U8) (p : Nat) {v w : Nat} (h : w ≤ v) :
    rest m v w (valueAt (endianOf m) buf p v) = valueAt (endianOf m) buf (p + w) (v - w) := by
  obtain ⟨d, rfl⟩ : ∃ d, v = w + d := ⟨v - w, by omega⟩
  rw [valueAt_add]
  have h1 := valueAt_lt (endianOf m) buf p w
  have h2 := valueAt_lt (endianOf m) buf (p + w) d
  rw [show w + d - w = d by omega]
  cases m
  · simp only [rest, endianOf] at *
    rw [show w + d - w = d by omega, Nat.mul_comm, Nat.mul_add_mod, Nat.mod_eq_of_lt h2]
  · simp only [rest, endianOf] at *
    rw [Nat.add_mul_div_left _ _ (Nat.two_pow_pos w), Nat.div_eq_of_lt h1, Nat.zero_add]

/-- `top` of the value of any bit sequence. -/
theorem top_bitsVal (m : Mode) (f : Nat → Bool) {v w : Nat} (h : w ≤ v) :
    top m v w (bitsVal (endianOf m) f v) = bitsVal (endianOf m) f w := by
  apply Nat.eq_of_testBit_eq
  intro i
  rw [bitsVal_testBit]
  cases m
  · simp only [top, endianOf]
    rw [Nat.testBit_div_two_pow, bitsVal_testBit]
    by_cases hi : i < w
    · simp only [ridx, hi, show i + (v - w) < v by omega, decide_true, Bool.true_and]
      congr 1; omega
    · simp [hi, show ¬ i + (v - w) < v by omega]
  · simp only [top, endianOf]
    rw [Nat.testBit_mod_two_pow, bitsVal_testBit]
    by_cases hi : i < w
    · simp [ridx, hi, show i < v by omega]
    · simp [hi]

/-! ### Bit strings -/

theorem codeBits_length (m : Mode) (c n : Nat) : (codeBits m c n).length = n := by simp [codeBits]

theorem codeBits_inj {m : Mode} {n a b : Nat} (ha : a < 2 ^ n) (hb : b < 2 ^ n)
    (h : codeBits m a n = codeBits m b n) : a = b := by
  apply Nat.eq_of_testBit_eq
  intro i
  by_cases hi : i < n
  · simp only [codeBits] at h
    have key := fun j (hj : j < n) => (List.map_inj_left.mp h) j (List.mem_range.mpr hj)
    cases m
    · have := key (n - 1 - i) (by omega)
      simp only at this
      rwa [show n - 1 - (n - 1 - i) = i by omega] at this
    · exact key i hi
  · have : 2 ^ n ≤ 2 ^ i := Nat.pow_le_pow_right (by omega) (by omega)
    rw [Nat.testBit_lt_two_pow (by omega), Nat.testBit_lt_two_pow (by omega)]

theorem codeBits_top {m : Mode} {v w i : Nat} (h : w ≤ v) :
    codeBits m (top m v w i) w = (codeBits m i v).take w := by
  unfold codeBits
  rw [← List.map_take, List.take_range, Nat.min_eq_left h]
  apply List.map_congr_left
  intro j hj
  have hj := List.mem_range.mp hj
  cases m
  · simp only [top]
    rw [Nat.testBit_div_two_pow]
    congr 1; omega
  · simp only [top]
    rw [Nat.testBit_mod_two_pow]; simp [hj]

theorem prefix_iff {m : Mode} {a n b k : Nat} (ha : a < 2 ^ n) (hb : b < 2 ^ k) :
    codeBits m a n <+: codeBits m b k ↔ n ≤ k ∧ top m k n b = a := by
  constructor
  · intro h
    have hl := h.length_le
    rw [codeBits_length, codeBits_length] at hl
    refine ⟨hl, ?_⟩
    rw [List.prefix_iff_eq_take, codeBits_length, ← codeBits_top hl] at h
    exact (codeBits_inj ha (top_lt hb hl) h).symm
  · rintro ⟨hl, rfl⟩
    rw [codeBits_top hl]
    exact List.take_prefix _ _

theorem streamBits_eq (m : Mode) (buf : List U8) (p n : Nat) :
    streamBits (endianOf m) buf p n = codeBits m (valueAt (endianOf m) buf p n) n := by
  unfold streamBits codeBits
  apply List.map_congr_left
  intro j hj
  have hj := List.mem_range.mp hj
  rw [valueAt_eq, bitsVal_testBit]
  cases m
  · simp only [endianOf, ridx, show n - 1 - j < n by omega, decide_true, Bool.true_and]
    congr 2; omega
  · simp [endianOf, ridx, hj]

theorem streamBits_code {m : Mode} {buf : List U8} {p n c : Nat} (hc : c < 2 ^ n) :
    streamBits (endianOf m) buf p n = codeBits m c n ↔ valueAt (endianOf m) buf p n = c := by
  rw [streamBits_eq]
  exact ⟨codeBits_inj (valueAt_lt ..) hc, fun h => by rw [h]⟩

theorem codeBits_rest {m : Mode} {v w i : Nat} (h : w ≤ v) :
    codeBits m (rest m v w i) (v - w) = (codeBits m i v).drop w := by
  apply List.ext_getElem
  · simp [codeBits_length]
  intro j h1 h2
  simp only [codeBits_length] at h1
  simp only [codeBits, List.getElem_map, List.getElem_range, List.getElem_drop]
  cases m
  · simp only [rest, Nat.testBit_mod_two_pow]
    have : v - w - 1 - j < v - w := by omega
    simp only [this, decide_true, Bool.true_and]
    congr 1; omega
  · simp only [rest, Nat.testBit_div_two_pow]
    congr 1; omega

end Verif.Codebook
