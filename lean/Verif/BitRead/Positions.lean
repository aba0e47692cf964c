import Verif.BitRead.AnyWidth
import Verif.BitRead.Overflow

/-!
# C99, exactly: which calls overflow a 64-bit position

For every buffer and every history of calls of any width.
-/

namespace Verif.BitRead
open Verif Verif.Bytes Verif.Data

/-- The call wants more bits than are cached, so that it looks whether there are eight more bytes. -/
def loads (r : Reader) : Op → Bool
  | .getBit | .peekBit => decide (r.left = 0)
  | .get64 n | .peek64 n => decide (r.left < n)
  | .get32 n | .peek32 n => decide (n ≠ 0 ∧ r.left ≤ n)
  | .skip n => decide (r.left < n)
  | .align => false

/-- The byte from which it would load. -/
def loadsAt (r : Reader) : Op → Nat
  | .skip n => r.index + if n - r.left > 64 then (n - r.left) / 8 else 0
  | _ => r.index

/-- The argument is a `usize`. -/
def argOk : Op → Prop
  | .get32 n | .peek32 n | .get64 n | .peek64 n | .skip n => n < 2 ^ 64
  | _ => True

instance : DecidablePred argOk := fun op => by cases op <;> unfold argOk <;> infer_instance

theorem uadd_bad {a b : Nat} (h : 2 ^ 64 ≤ a + b) : uadd a b = .error .overflow := by
  simp only [uadd, if_neg (Nat.not_lt.mpr h)]

theorem canRefillC_bad (r : Reader) (h : 2 ^ 64 ≤ r.index + 8) : canRefillC r = .error .overflow := by
  simp only [canRefillC, uadd_bad h, error_bind]

theorem refill64C_bad (e : Endian) (r : Reader) (h : 2 ^ 64 ≤ r.index + 8) : refill64C e r = .error .overflow := by
  simp only [refill64C, canRefillC_bad r h, error_bind]

theorem refill32C_bad (e : Endian) (r : Reader) (h : 2 ^ 64 ≤ r.index + 8) : refill32C e r = .error .overflow := by
  simp only [refill32C, canRefillC_bad r h, error_bind]

theorem get_bitC_exact (e : Endian) (r : Reader) :
    get_bitC e r = if r.left = 0 ∧ 2 ^ 64 ≤ r.index + 8 then .error .overflow else get_bit e r := by
  by_cases h : r.index + 8 < 2 ^ 64
  · rw [if_neg (by omega), get_bitC_eq e r h]
  · by_cases hl : r.left = 0
    · rw [if_pos ⟨hl, by omega⟩]
      simp only [get_bitC, if_pos hl, refill64C_bad e r (by omega), error_bind]
    · rw [if_neg (by simp [hl])]
      simp only [get_bitC, get_bit, if_neg hl]

theorem get_bits_32C_exact (e : Endian) (r : Reader) (hl : r.left ≤ 64) (n : Nat) :
    get_bits_32C e r n = if (n ≠ 0 ∧ r.left ≤ n) ∧ 2 ^ 64 ≤ r.index + 8 then .error .overflow
      else get_bits_32 e r n := by
  by_cases h : r.index + 8 < 2 ^ 64
  · rw [if_neg (by omega), get_bits_32C_eq e r n h hl]
  · by_cases h0 : n = 0
    · rw [if_neg (by simp [h0])]
      simp only [get_bits_32C, get_bits_32, if_pos h0]
    · by_cases h1 : r.left ≤ n
      · rw [if_pos ⟨⟨h0, h1⟩, by omega⟩]
        simp only [get_bits_32C, if_neg h0, if_pos h1, refill32C_bad e r (by omega), error_bind]
      · rw [if_neg (by simp [h1])]
        simp only [get_bits_32C, get_bits_32, if_neg h0, if_neg h1]

theorem get_bits_64C_exact (e : Endian) (r : Reader) (hl : r.left ≤ 64) (n : Nat) :
    get_bits_64C e r n = if r.left < n ∧ 2 ^ 64 ≤ r.index + 8 then .error .overflow
      else get_bits_64 e r n := by
  by_cases h : r.index + 8 < 2 ^ 64
  · rw [if_neg (by omega), get_bits_64C_eq e r n h]
  · by_cases h1 : r.left < n
    · rw [if_pos ⟨h1, by omega⟩]
      obtain ⟨ret, hr, _⟩ := getVal_spec e r (n := r.left) hl
      simp only [get_bits_64C, if_neg (show n ≠ 0 by omega), if_pos h1, hr, ok_bind,
        refill64C_bad e (skipRem e r r.left) (by simpa using h), error_bind]
    · rw [if_neg (by simp [h1])]
      simp only [get_bits_64C, get_bits_64, if_neg h1]

theorem skip_bitsC_exact (e : Endian) (r : Reader) {n : Nat} (hn : n < 2 ^ 64) :
    skip_bitsC e r n = if r.left < n ∧ 2 ^ 64 ≤ loadsAt r (.skip n) + 8 then .error .overflow
      else skip_bits e r n := by
  by_cases h : r.left < n
  · by_cases h64 : n - r.left > 64
    · have h1 : (n - r.left) / 8 * 8 < 2 ^ 64 := by omega
      simp only [loadsAt, skip_bitsC, skip_bits, h, h64, if_true, true_and, umul_ok h1, ok_bind, pure_eq_ok,
        usub_ok (show (n - r.left) / 8 * 8 ≤ n - r.left by omega)]
      by_cases h2 : r.index + (n - r.left) / 8 < 2 ^ 64
      · simp only [uadd_ok h2, ok_bind]
        by_cases h3 : r.index + (n - r.left) / 8 + 8 < 2 ^ 64
        · rw [if_neg (by omega), refill64C_eq e _ (by simpa using h3)]
        · rw [if_pos (by omega), refill64C_bad e _ (by simpa using h3), error_bind]
      · rw [if_pos (by omega), uadd_bad (by omega)]
        rfl
    · simp only [loadsAt, skip_bitsC, skip_bits, h, h64, if_true, if_false, true_and, ok_bind, pure_eq_ok, Nat.add_zero]
      by_cases h3 : r.index + 8 < 2 ^ 64
      · rw [if_neg (by omega), refill64C_eq e _ (by simpa using h3)]
      · rw [if_pos (by omega), refill64C_bad e _ (by simpa using h3), error_bind]
  · simp only [skip_bitsC, skip_bits, h, if_false, false_and]

/-- The checked functions are the unbounded ones, but for the calls that look for bytes at a position too large. -/
theorem stepC_exact (e : Endian) (r : Reader) (hl : r.left ≤ 64) (op : Op) (ha : argOk op) :
    stepC e r op = if loads r op ∧ 2 ^ 64 ≤ loadsAt r op + 8 then .error .overflow else step e r op := by
  cases op with
  | getBit =>
    simp only [stepC, step, get_bitC_exact, loads, loadsAt, decide_eq_true_eq]
    split <;> rfl
  | get32 n =>
    simp only [stepC, step, get_bits_32C_exact e r hl, loads, loadsAt, decide_eq_true_eq]
    split <;> rfl
  | get64 n =>
    simp only [stepC, step, get_bits_64C_exact e r hl, loads, loadsAt, decide_eq_true_eq]
    split <;> rfl
  | skip n =>
    simp only [stepC, step, skip_bitsC_exact e r ha, loads, decide_eq_true_eq]
    split <;> rfl
  | align =>
    have : r.left &&& 7 ≤ r.left := Nat.and_le_left
    have h : ¬ r.left < r.left &&& 7 := by omega
    simp only [stepC, step, align_bits, skip_bitsC, skip_bits, if_neg h, loads, Bool.false_eq_true, false_and, if_false]
  | peekBit =>
    simp only [stepC, step, peek_bit, get_bitC_exact, loads, loadsAt, decide_eq_true_eq]
    split
    · rfl
    · cases get_bit e r <;> rfl
  | peek32 n =>
    simp only [stepC, step, peek_bits_32, get_bits_32C_exact e r hl, loads, loadsAt, decide_eq_true_eq]
    split
    · rfl
    · cases get_bits_32 e r n <;> rfl
  | peek64 n =>
    simp only [stepC, step, peek_bits_64, get_bits_64C_exact e r hl, loads, loadsAt, decide_eq_true_eq]
    split
    · rfl
    · cases get_bits_64 e r n <;> rfl

/-- A call that overflows a position. -/
def Overflows (r : Reader) (op : Op) : Prop := loads r op = true ∧ 2 ^ 64 ≤ loadsAt r op + 8

theorem runC_exact (e : Endian) (ops : List Op) (ha : ∀ op ∈ ops, argOk op) : ∀ r : Reader, r.left ≤ 64 →
    (runC e r ops = run e r ops ∧
      ∀ pre op post vs r', ops = pre ++ op :: post → run e r pre = .ok (vs, r') → ¬ Overflows r' op) ∨
    (runC e r ops = .error .overflow ∧
      ∃ pre op post vs r', ops = pre ++ op :: post ∧ run e r pre = .ok (vs, r') ∧ Overflows r' op) := by
  induction ops with
  | nil =>
    intro r _
    refine .inl ⟨rfl, ?_⟩
    intro pre op post _ _ h
    simp at h
  | cons op ops ih =>
    intro r hl
    have hs := stepC_exact e r hl op (ha op (by simp))
    by_cases ho : Overflows r op
    · have hs : stepC e r op = .error .overflow := hs.trans (if_pos ho)
      exact .inr ⟨by simp only [runC, hs, error_bind], [], op, ops, [], r, rfl, rfl, ho⟩
    · have hs : stepC e r op = step e r op := hs.trans (if_neg ho)
      have ht := step_any e r hl op
      cases hp : panicOf e r op with
      | some p =>
        rw [hp] at ht
        simp only at ht
        rw [ht] at hs
        refine .inl ⟨by simp only [runC, run, hs, ht, error_bind], ?_⟩
        intro pre o post vs r' h1 h2
        cases pre with
        | nil =>
          simp only [List.nil_append, List.cons.injEq] at h1
          simp only [run, Except.ok.injEq, Prod.mk.injEq] at h2
          rw [← h1.1, ← h2.2]
          exact ho
        | cons q pre =>
          simp only [List.cons_append, List.cons.injEq] at h1
          rw [← h1.1] at h2
          simp only [run, ht, error_bind] at h2
          cases h2
      | none =>
        rw [hp] at ht
        obtain ⟨v, r1, a1, _, a3⟩ := ht
        rw [a1] at hs
        rcases ih (fun o ho => ha o (by simp [ho])) r1 a3 with ⟨b1, b2⟩ | ⟨b1, pre, o, post, vs, r', b2, b3, b4⟩
        · refine .inl ⟨by simp only [runC, run, hs, a1, ok_bind, b1], ?_⟩
          intro pre o post vs r' h1 h2
          cases pre with
          | nil =>
            simp only [List.nil_append, List.cons.injEq] at h1
            simp only [run, Except.ok.injEq, Prod.mk.injEq] at h2
            rw [← h1.1, ← h2.2]
            exact ho
          | cons q pre =>
            simp only [List.cons_append, List.cons.injEq] at h1
            rw [← h1.1] at h2
            simp only [run, a1, ok_bind] at h2
            cases hr : run e r1 pre with
            | error x => rw [hr] at h2; cases h2
            | ok x =>
              obtain ⟨ws, r2⟩ := x
              rw [hr] at h2
              simp only [ok_bind, pure_eq_ok, Except.ok.injEq, Prod.mk.injEq] at h2
              exact b2 pre o post ws r' h1.2 (by rw [hr, h2.2])
        · refine .inr ⟨by simp only [runC, hs, ok_bind, b1, error_bind], op :: pre, o, post, v :: vs, r', by rw [b2]; rfl,
            by simp only [run, a1, ok_bind, b3, pure_eq_ok], b4⟩

/-- **C99, exactly** For every buffer and every history of calls with any `usize` arguments: either no call of the
history overflows a position, and then the checked functions do what the unbounded model does; or some call looks for
eight bytes at a position within 8 of `2^64`, and then the history panics there. `consumed` overflows just when the
position is `2^61` bytes or more, `available` when that many bytes are left.
Missing for C99: that this cannot happen, which is false. -/
theorem c99_exact_partial (e : Endian) (buf : List U8) (ops : List Op) (ha : ∀ op ∈ ops, argOk op) :
    ∃ r0, newC e buf = .ok r0 ∧ new e buf = .ok r0 ∧
      ((runC e r0 ops = run e r0 ops ∧
        ∀ pre op post vs r', ops = pre ++ op :: post → run e r0 pre = .ok (vs, r') → ¬ Overflows r' op) ∨
      (runC e r0 ops = .error .overflow ∧
        ∃ pre op post vs r', ops = pre ++ op :: post ∧ run e r0 pre = .ok (vs, r') ∧ Overflows r' op)) ∧
      (∀ r : Reader, consumedC r = if 2 ^ 64 ≤ r.index * 8 then .error .overflow else consumed r) ∧
      (∀ r : Reader, availableC r =
        if r.index ≤ r.buffer.length ∧ 2 ^ 64 ≤ (r.buffer.length - r.index) * 8 + r.left then .error .overflow
        else available r) := by
  obtain ⟨r0, h1, _, _, h3⟩ := new_spec e buf
  refine ⟨r0, ?_, h1, runC_exact e ops ha r0 h3.left_le, ?_, ?_⟩
  · rw [← h1]
    exact refill64C_eq e _ (by simp)
  · intro r
    by_cases h : r.index * 8 < 2 ^ 64
    · rw [if_neg (by omega)]
      simp only [consumedC, consumed, umul_ok h, ok_bind]
    · rw [if_pos (by omega)]
      simp only [consumedC, umul, if_neg h, error_bind]
  · intro r
    unfold availableC available
    by_cases hc : r.index ≤ r.buffer.length
    · rw [usub_ok hc]
      by_cases e1 : (r.buffer.length - r.index) * 8 < 2 ^ 64
      · by_cases e2 : (r.buffer.length - r.index) * 8 + r.left < 2 ^ 64
        · rw [if_neg (by omega)]
          simp only [ok_bind, umul_ok e1, uadd_ok e2, pure_eq_ok]
        · rw [if_pos ⟨hc, by omega⟩]
          simp only [ok_bind, umul_ok e1, uadd_bad (Nat.not_lt.mp e2)]
      · rw [if_pos ⟨hc, by omega⟩]
        simp only [ok_bind, umul, if_neg e1, error_bind]
    · rw [if_neg (by simp [hc])]
      simp [usub, hc]

/-- Both cases occur: the ninth skip by `usize::MAX` bits of `c99_fails` is the first that overflows. -/
example : ∃ r0 vs r, new .le sample = .ok r0 ∧ run .le r0 (List.replicate 8 (.skip (2 ^ 64 - 1))) = .ok (vs, r) ∧
    Overflows r (.skip (2 ^ 64 - 1)) ∧ ¬ Overflows r (.skip 8) ∧ ¬ Overflows r0 (.skip (2 ^ 64 - 1)) := by
  refine ⟨_, _, _, rfl, rfl, ?_⟩
  unfold Overflows
  decide +kernel

end Verif.BitRead
