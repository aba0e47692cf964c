import Verif.Prelude

/-!
# Checked `usize` arithmetic of `av-data`, and `align`

`usize` has 64 bits. An overflowing addition or multiplication is a panic (in builds with overflow checks;
without them it wraps, so every theorem concluding `.ok` holds for both).
-/

namespace Verif.Data
open Verif

/-- `a + b` on `usize`. -/
def uadd (a b : Nat) : Rust Nat := if a + b < 2 ^ 64 then .ok (a + b) else .error .overflow

/-- `a * b` on `usize`. -/
def umul (a b : Nat) : Rust Nat := if a * b < 2 ^ 64 then .ok (a * b) else .error .overflow

/-- `a << s` on `usize`. -/
def ushl (a s : Nat) : Rust Nat := if s < 64 then .ok (a <<< s % 2 ^ 64) else .error .shift

/-- `a >> s` on `usize`. -/
def ushr (a s : Nat) : Rust Nat := if s < 64 then .ok (a >>> s) else .error .shift

/-- `!a` on `usize`. -/
def unot (a : Nat) : Nat := 2 ^ 64 - (a + 1)

@[simp] theorem uadd_ok {a b : Nat} (h : a + b < 2 ^ 64) : uadd a b = .ok (a + b) := by simp [uadd, h]
@[simp] theorem umul_ok {a b : Nat} (h : a * b < 2 ^ 64) : umul a b = .ok (a * b) := by simp [umul, h]
@[simp] theorem ushr_ok {a s : Nat} (h : s < 64) : ushr a s = .ok (a / 2 ^ s) := by
  simp [ushr, h, Nat.shiftRight_eq_div_pow]
@[simp] theorem ushl_one {s : Nat} (h : s < 64) : ushl 1 s = .ok (2 ^ s) := by
  have : 2 ^ s < 2 ^ 64 := Nat.pow_lt_pow_right (by omega) h
  simp [ushl, h, Nat.shiftLeft_eq, Nat.mod_eq_of_lt this]

/-- audiosample.rs:27-29 and pixel.rs:579-581 (the same text twice) -/
def align (v a : Nat) : Rust Nat := do
  let s ← usub (← uadd v a) 1
  let m ← usub a 1
  return s &&& unot m

/-- audiosample.rs:33-35 -/
def roundToByte (v : Nat) : Rust Nat := do ushr (← uadd v 7) 3

theorem land_unot {x k : Nat} (hx : x < 2 ^ 64) (hk : k ≤ 64) :
    x &&& unot (2 ^ k - 1) = x / 2 ^ k * 2 ^ k := by
  have hp : 2 ^ k - 1 < 2 ^ 64 := by
    have := Nat.pow_le_pow_right (n := 2) (by omega) hk
    have := Nat.two_pow_pos k
    omega
  apply Nat.eq_of_testBit_eq
  intro i
  rw [Nat.testBit_and, unot, Nat.testBit_two_pow_sub_succ hp, Nat.testBit_two_pow_sub_one,
    Nat.testBit_mul_two_pow, Nat.testBit_div_two_pow]
  by_cases hi : k ≤ i
  · by_cases h64 : i < 64
    · simp [hi, h64, Nat.sub_add_cancel hi]
    · have : x.testBit i = false :=
        Nat.testBit_lt_two_pow (Nat.lt_of_lt_of_le hx (Nat.pow_le_pow_right (by omega) (by omega)))
      simp [hi, h64, Nat.sub_add_cancel hi, this]
  · simp [hi]; intros; omega

theorem align_pow {v k : Nat} (h : v + 2 ^ k < 2 ^ 64) :
    align v (2 ^ k) = .ok ((v + 2 ^ k - 1) / 2 ^ k * 2 ^ k) := by
  have hk : k ≤ 64 := by
    refine Nat.le_of_not_lt fun hc => ?_
    have := Nat.pow_le_pow_right (n := 2) (by omega) (Nat.le_of_lt hc)
    omega
  have := Nat.two_pow_pos k
  simp only [align, uadd_ok h, usub_ok (show 1 ≤ v + 2 ^ k by omega), usub_ok this, ok_bind, pure_eq_ok]
  rw [land_unot (by omega) hk]

/-- Outside the range of `align_pow` the addition overflows. -/
theorem align_overflow {v a : Nat} (h : 2 ^ 64 ≤ v + a) : align v a = .error .overflow := by
  simp [align, uadd, Nat.not_lt.2 h]

/-- Bounds of rounding up. -/
theorem roundUp_bounds (v a : Nat) (ha : 0 < a) :
    v ≤ (v + a - 1) / a * a ∧ (v + a - 1) / a * a < v + a := by
  have h1 := Nat.div_add_mod (v + a - 1) a
  have h2 := Nat.mod_lt (v + a - 1) ha
  rw [Nat.mul_comm] at h1
  omega

end Verif.Data
