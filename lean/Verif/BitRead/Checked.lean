import Verif.BitRead.Positions
import Verif.BitRead.Narrow

/-!
# C123 with overflow checks, exactly: which calls overflow a position of any width

As `Positions.lean`, for `usize` of `b` bits and every history of calls of any width.
-/

namespace Verif.BitRead
open Verif Verif.Bytes Verif.Data

/-- A call that looks for eight bytes at a position within 8 of `2^b`. -/
def OverflowsAt (b : Nat) (r : Reader) (op : Op) : Prop := loads r op = true ∧ 2 ^ b ≤ loadsAt r op + 8

instance (b : Nat) (r : Reader) (op : Op) : Decidable (OverflowsAt b r op) := by unfold OverflowsAt; infer_instance

section
variable {b : Nat}

theorem checked_getVal : (narrowOps b true).getVal = getVal := by
  funext e r n
  cases e <;> simp [Ops.getVal, getVal, Ops.peekVal, peekVal, narrowOps, usub] <;> rfl

theorem checked_mergeVal : (narrowOps b true).mergeVal = mergeVal := by
  funext e x y m n
  cases e <;> simp [Ops.mergeVal, mergeVal, narrowOps, shlPanic]

theorem checked_buildCache : (narrowOps b true).buildCache = buildCache := by
  funext e x y n
  cases e <;> simp [Ops.buildCache, buildCache, narrowOps, shlPanic, usub]

theorem checked_add {x y : Nat} : (narrowOps b true).add x y = if x + y < 2 ^ b then .ok (x + y) else .error .overflow := by
  simp [narrowOps]

theorem checked_refill64 (e : Endian) (r : Reader) :
    (narrowOps b true).refill64 e r = if 2 ^ b ≤ r.index + 8 then .error .overflow else refill64 e r := by
  by_cases h : r.index + 8 < 2 ^ b
  · rw [if_neg (by omega)]
    simp only [Ops.refill64, refill64, exact_canRefill (narrow_exact b true) r h, checked_add, if_pos h, ok_bind, pure_eq_ok]
  · rw [if_pos (by omega)]
    simp only [Ops.refill64, Ops.canRefill, checked_add, if_neg h, error_bind]

theorem checked_refill32 (hB : 128 ≤ 2 ^ b) (e : Endian) (r : Reader) (hl : r.left ≤ 64) :
    (narrowOps b true).refill32 e r = if 2 ^ b ≤ r.index + 8 then .error .overflow else refill32 e r := by
  by_cases h : r.index + 8 < 2 ^ b
  · rw [if_neg (by omega)]
    simp only [Ops.refill32, refill32, exact_canRefill (narrow_exact b true) r h, checked_add, checked_buildCache,
      if_pos (show r.index + 4 < 2 ^ b by omega), if_pos (show r.left + 32 < 2 ^ b by omega), ok_bind, pure_eq_ok]
  · rw [if_pos (by omega)]
    simp only [Ops.refill32, Ops.canRefill, checked_add, if_neg h, error_bind]

theorem checked_get_bit (e : Endian) (r : Reader) :
    (narrowOps b true).get_bit e r = if r.left = 0 ∧ 2 ^ b ≤ r.index + 8 then .error .overflow else get_bit e r := by
  simp only [Ops.get_bit, get_bit, checked_refill64, checked_getVal]
  by_cases hl : r.left = 0
  · by_cases h : 2 ^ b ≤ r.index + 8
    · simp only [hl, h, if_true, and_self, error_bind]
    · simp only [hl, h, if_true, if_false, and_false]
  · simp only [hl, if_false, false_and]

theorem checked_get_bits_32 (hB : 128 ≤ 2 ^ b) (e : Endian) (r : Reader) (hl : r.left ≤ 64) (n : Nat) :
    (narrowOps b true).get_bits_32 e r n = if (n ≠ 0 ∧ r.left ≤ n) ∧ 2 ^ b ≤ r.index + 8 then .error .overflow
      else get_bits_32 e r n := by
  simp only [Ops.get_bits_32, get_bits_32, checked_refill32 hB e r hl, checked_getVal]
  by_cases h0 : n = 0
  · simp only [h0, if_true, ne_eq, not_true_eq_false, false_and, if_false]
  · by_cases h1 : r.left ≤ n
    · by_cases h : 2 ^ b ≤ r.index + 8
      · simp only [h0, h1, h, if_true, if_false, ne_eq, not_false_eq_true, and_self, error_bind]
      · simp only [h0, h1, h, if_true, if_false, and_false]
    · simp only [h0, h1, if_false, and_false, false_and]

theorem checked_get_bits_64 (e : Endian) (r : Reader) (hl : r.left ≤ 64) (n : Nat) :
    (narrowOps b true).get_bits_64 e r n = if r.left < n ∧ 2 ^ b ≤ r.index + 8 then .error .overflow
      else get_bits_64 e r n := by
  simp only [Ops.get_bits_64, get_bits_64, checked_refill64, checked_getVal, checked_mergeVal]
  by_cases h1 : r.left < n
  · obtain ⟨ret, hr, _⟩ := getVal_spec e r (n := r.left) hl
    by_cases h : 2 ^ b ≤ r.index + 8
    · simp only [if_neg (show n ≠ 0 by omega), hr, ok_bind, skipRem_index, error_bind, h1, h, and_self,
        if_true]
    · simp only [if_neg (show n ≠ 0 by omega), hr, ok_bind, skipRem_index, h1, h, and_false, if_false]
  · simp only [h1, if_false, false_and]

theorem checked_skip_bits (e : Endian) (r : Reader) {n : Nat} (hn : n < 2 ^ b) :
    (narrowOps b true).skip_bits e r n = if r.left < n ∧ 2 ^ b ≤ loadsAt r (.skip n) + 8 then .error .overflow
      else skip_bits e r n := by
  have ho := narrow_exact b true
  by_cases h : r.left < n
  · by_cases h64 : n - r.left > 64
    · have h1 : (n - r.left) / 8 * 8 < 2 ^ b := by omega
      simp only [loadsAt, Ops.skip_bits, skip_bits, h, h64, if_true, true_and, ho.mul _ _ h1, ok_bind, pure_eq_ok,
        ho.sub _ _ (show (n - r.left) / 8 * 8 ≤ n - r.left by omega), checked_add, checked_refill64, skipRem_index]
      by_cases h2 : r.index + (n - r.left) / 8 < 2 ^ b
      · simp only [if_pos h2, ok_bind]
        by_cases h3 : 2 ^ b ≤ r.index + (n - r.left) / 8 + 8
        · simp only [if_pos h3, error_bind]
        · simp only [if_neg h3]
      · rw [if_pos (show 2 ^ b ≤ r.index + (n - r.left) / 8 + 8 by omega), if_neg h2]
        rfl
    · simp only [loadsAt, Ops.skip_bits, skip_bits, h, h64, if_true, if_false, true_and, ok_bind, pure_eq_ok, Nat.add_zero,
        checked_refill64, skipRem_index]
      by_cases h3 : 2 ^ b ≤ r.index + 8
      · simp only [if_pos h3, error_bind]
      · simp only [if_neg h3]
  · simp only [Ops.skip_bits, skip_bits, h, if_false, false_and]

theorem checked_step (hB : 128 ≤ 2 ^ b) (e : Endian) (r : Reader) (hl : r.left ≤ 64) (op : Op) (ha : Usize b op) :
    (narrowOps b true).step e r op = if OverflowsAt b r op then .error .overflow else step e r op := by
  unfold OverflowsAt
  cases op with
  | getBit =>
    simp only [Ops.step, step, checked_get_bit, loads, loadsAt, decide_eq_true_eq]
    split <;> rfl
  | get32 n =>
    simp only [Ops.step, step, checked_get_bits_32 hB e r hl, loads, loadsAt, decide_eq_true_eq]
    split <;> rfl
  | get64 n =>
    simp only [Ops.step, step, checked_get_bits_64 e r hl, loads, loadsAt, decide_eq_true_eq]
    split <;> rfl
  | skip n =>
    simp only [Ops.step, step, checked_skip_bits e r ha, loads, decide_eq_true_eq]
    split <;> rfl
  | align =>
    have : r.left &&& 7 ≤ r.left := Nat.and_le_left
    have h : ¬ r.left < r.left &&& 7 := by omega
    simp only [Ops.step, step, align_bits, Ops.skip_bits, skip_bits, if_neg h, loads, Bool.false_eq_true, false_and, if_false]
  | peekBit =>
    simp only [Ops.step, step, peek_bit, checked_get_bit, loads, loadsAt, decide_eq_true_eq]
    split
    · rfl
    · cases get_bit e r <;> rfl
  | peek32 n =>
    simp only [Ops.step, step, peek_bits_32, checked_get_bits_32 hB e r hl, loads, loadsAt, decide_eq_true_eq]
    split
    · rfl
    · cases get_bits_32 e r n <;> rfl
  | peek64 n =>
    simp only [Ops.step, step, peek_bits_64, checked_get_bits_64 e r hl, loads, loadsAt, decide_eq_true_eq]
    split
    · rfl
    · cases get_bits_64 e r n <;> rfl

theorem checked_run (hB : 128 ≤ 2 ^ b) (e : Endian) (ops : List Op) (ha : ∀ op ∈ ops, Usize b op) : ∀ r : Reader, r.left ≤ 64 →
    ((narrowOps b true).run e r ops = run e r ops ∧
      ∀ pre op post vs r', ops = pre ++ op :: post → run e r pre = .ok (vs, r') → ¬ OverflowsAt b r' op) ∨
    ((narrowOps b true).run e r ops = .error .overflow ∧
      ∃ pre op post vs r', ops = pre ++ op :: post ∧ run e r pre = .ok (vs, r') ∧
        (narrowOps b true).run e r pre = .ok (vs, r') ∧ OverflowsAt b r' op) := by
  induction ops with
  | nil =>
    intro r _
    refine .inl ⟨rfl, ?_⟩
    intro pre op post _ _ h
    simp at h
  | cons op ops ih =>
    intro r hl
    have hs := checked_step hB e r hl op (ha op (by simp))
    by_cases ho : OverflowsAt b r op
    · have hs := hs.trans (if_pos ho)
      exact .inr ⟨by simp only [Ops.run, hs, error_bind], [], op, ops, [], r, rfl, rfl, rfl, ho⟩
    · have hs := hs.trans (if_neg ho)
      have ht := step_any e r hl op
      have first : ∀ (pre : List Op) (o : Op) (post : List Op) (vs : List (Option Nat)) (r' : Reader),
          op :: ops = pre ++ o :: post → run e r pre = .ok (vs, r') → pre = [] → ¬ OverflowsAt b r' o := by
        intro pre o post vs r' h1 h2 h3
        subst h3
        simp only [List.nil_append, List.cons.injEq] at h1
        simp only [run, Except.ok.injEq, Prod.mk.injEq] at h2
        rw [← h1.1, ← h2.2]
        exact ho
      cases hp : panicOf e r op with
      | some p =>
        rw [hp] at ht
        simp only at ht
        rw [ht] at hs
        refine .inl ⟨by simp only [Ops.run, run, hs, ht, error_bind], ?_⟩
        intro pre o post vs r' h1 h2
        cases pre with
        | nil => exact first [] o post vs r' h1 h2 rfl
        | cons q pre =>
          simp only [List.cons_append, List.cons.injEq] at h1
          rw [← h1.1] at h2
          simp only [run, ht, error_bind] at h2
          cases h2
      | none =>
        rw [hp] at ht
        obtain ⟨v, r1, a1, _, a3⟩ := ht
        rw [a1] at hs
        rcases ih (fun o ho => ha o (by simp [ho])) r1 a3 with ⟨b1, b2⟩ | ⟨b1, pre, o, post, vs, r', b2, b3, b4, b5⟩
        · refine .inl ⟨by simp only [Ops.run, run, hs, a1, ok_bind, b1], ?_⟩
          intro pre o post vs r' h1 h2
          cases pre with
          | nil => exact first [] o post vs r' h1 h2 rfl
          | cons q pre =>
            simp only [List.cons_append, List.cons.injEq] at h1
            rw [← h1.1] at h2
            simp only [run, a1, ok_bind] at h2
            cases hr : run e r1 pre with
            | error x => rw [hr] at h2; cases h2
            | ok x =>
              obtain ⟨ws, r2⟩ := x
              rw [hr] at h2
              simp only [ok_bind, pure_eq_ok, Except.ok.injEq, Prod.mk.injEq] at h2
              exact b2 pre o post ws r' h1.2 (by rw [hr, h2.2])
        · refine .inr ⟨by simp only [Ops.run, hs, ok_bind, b1, error_bind], op :: pre, o, post, v :: vs, r', by rw [b2]; rfl,
            by simp only [run, a1, ok_bind, b3, pure_eq_ok], by simp only [Ops.run, hs, ok_bind, b4, pure_eq_ok], b5⟩

end

/-- **C123 with overflow checks, exactly** On a target with `b` bits, for every buffer and every
history of calls of any width: either no call of the history looks for eight bytes at a position within 8 of `2^b`, and
then the functions do what the unbounded model does, panics included; or some call does, and then the calls before it
return what they return there, and it panics. `consumed` panics exactly when the number of bits loaded does not fit,
`available` when it does not fit itself or a skip has gone past the end.
Missing for C123: that this cannot happen, which is false. -/
theorem c123_checked_partial (b : Nat) (e : Endian) (buf : List U8) (ops : List Op) (h7 : 7 ≤ b)
    (ha : ∀ op ∈ ops, Usize b op) :
    ∃ r0, (narrowOps b true).new e buf = .ok r0 ∧ new e buf = .ok r0 ∧
      (((narrowOps b true).run e r0 ops = run e r0 ops ∧
        ∀ pre op post vs r', ops = pre ++ op :: post → run e r0 pre = .ok (vs, r') → ¬ OverflowsAt b r' op) ∨
      ((narrowOps b true).run e r0 ops = .error .overflow ∧
        ∃ pre op post vs r', ops = pre ++ op :: post ∧ run e r0 pre = .ok (vs, r') ∧
          (narrowOps b true).run e r0 pre = .ok (vs, r') ∧ OverflowsAt b r' op)) ∧
      (∀ r : Reader, (narrowOps b true).consumed r = if 2 ^ b ≤ r.index * 8 then .error .overflow else consumed r) ∧
      (∀ r : Reader, (narrowOps b true).available r =
        if r.index ≤ r.buffer.length ∧ 2 ^ b ≤ (r.buffer.length - r.index) * 8 + r.left then .error .overflow
        else available r) := by
  have hB : 128 ≤ 2 ^ b := Nat.pow_le_pow_right (n := 2) (by decide) h7
  obtain ⟨r0, h1, _, _, h3⟩ := new_spec e buf
  refine ⟨r0, ?_, h1, checked_run hB e ops ha r0 h3.left_le, ?_, ?_⟩
  · rw [← h1]
    exact (checked_refill64 e _).trans (if_neg (by simp only; omega))
  · intro r
    by_cases h : r.index * 8 < 2 ^ b
    · rw [if_neg (by omega)]
      simp only [Ops.consumed, consumed, (narrow_exact b true).mul _ _ h, ok_bind]
      simp [narrowOps, usub]
    · rw [if_pos (by omega)]
      simp only [Ops.consumed, narrowOps, if_neg h, if_true, error_bind]
  · intro r
    rw [narrow_available]
    unfold available
    by_cases hc : r.index ≤ r.buffer.length
    · rw [usub_ok hc]
      simp only [true_and, hc, ok_bind, pure_eq_ok, Nat.not_lt]
      by_cases e1 : 2 ^ b ≤ (r.buffer.length - r.index) * 8 + r.left
      · rw [if_pos e1, if_pos e1]
      · rw [if_neg e1, if_neg e1, show (r.buffer.length + 2 ^ b - r.index) * 8 + r.left =
          (r.buffer.length - r.index) * 8 + r.left + 2 ^ b * 8 by omega, Nat.add_mul_mod_self_left, Nat.mod_eq_of_lt (by omega)]
    · rw [if_pos ⟨rfl, fun h => hc h.1⟩, if_neg (fun h => hc h.1)]
      simp [usub, hc]

/-- Both cases occur: with 16 bits the ninth skip by `usize::MAX` bits is the first that overflows. -/
example : ∃ r0 vs r, new .le sample = .ok r0 ∧ run .le r0 (List.replicate 8 (.skip (2 ^ 16 - 1))) = .ok (vs, r) ∧
    OverflowsAt 16 r (.skip (2 ^ 16 - 1)) ∧ ¬ OverflowsAt 16 r (.skip 8) ∧ ¬ OverflowsAt 16 r0 (.skip (2 ^ 16 - 1)) := by
  refine ⟨_, _, _, rfl, rfl, ?_⟩
  unfold OverflowsAt
  decide +kernel

end Verif.BitRead
