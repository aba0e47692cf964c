import Verif.BitRead.Wide

/-!
# C100: reads of every width, exactly

When a call panics, for every reader that can be reached, also through calls of any width; and what the reads wider
than their result return.
-/

namespace Verif.BitRead
open Verif Verif.Bytes

/-- The panic a call ends in: `get_bits_32` shifts by 64 or subtracts the cached bits from 32 when it loads more than
fit; the big-endian readers subtract the width from 64; the little-endian `get_bits_64` shifts by the 64 bits it
holds. -/
def panicOf (e : Endian) (r : Reader) : Op → Option Panic
  | .get32 n | .peek32 n =>
    match e with
    | .le => if n ≠ 0 ∧ r.left ≤ n ∧ r.index + 8 ≤ r.buffer.length ∧ r.left = 64 then some .shift else none
    | .be => if n ≠ 0 ∧ ((r.left ≤ n ∧ r.index + 8 ≤ r.buffer.length ∧ 32 < r.left) ∨ 64 < n % 2 ^ 32)
        then some .overflow else none
  | .get64 n | .peek64 n =>
    match e with
    | .le => if r.left = 64 ∧ 64 < n then some .shift else none
    | .be => if r.left < n ∧ 64 < (n - r.left) % 2 ^ 32 then some .overflow else none
  | .getBit | .skip _ | .align | .peekBit => none

theorem getVal_le (r : Reader) (n : Nat) : ∃ v, getVal .le r n = .ok (v, skipRem .le r n) := ⟨_, rfl⟩

theorem getVal_be {r : Reader} {n : Nat} (h : n % 2 ^ 32 ≤ 64) : ∃ v, getVal .be r n = .ok (v, skipRem .be r n) :=
  ⟨_, by simp only [getVal, peekVal, usub_ok h, ok_bind, pure_eq_ok]; rfl⟩

theorem getVal_be_panic {r : Reader} {n : Nat} (h : 64 < n % 2 ^ 32) : getVal .be r n = .error .overflow := by
  simp only [getVal, peekVal, usub, if_neg (Nat.not_le.mpr h), error_bind]

/-- `refill32` on any reader that can be refilled. -/
theorem refill32_any (e : Endian) (r : Reader) (h : r.index + 8 ≤ r.buffer.length) :
    (match e with
      | .le => r.left < 64
      | .be => r.left ≤ 32) →
    ∃ r', refill32 e r = .ok r' ∧ r'.buffer = r.buffer ∧ r'.left = r.left + 32 := by
  intro hl
  have hc : canRefill r = true := decide_eq_true h
  obtain ⟨v, h1, _⟩ := fill32_spec e r hc
  cases e
  · exact ⟨{ r with cache := r.cache ||| BitVec.setWidth 64 v <<< r.left, index := r.index + 4, left := r.left + 32 },
      by simp only [refill32, hc, Bool.not_true, Bool.false_eq_true, if_false, h1, ok_bind, buildCache, shlPanic,
      if_pos hl, pure_eq_ok], rfl, rfl⟩
  · exact ⟨{ r with
        cache := r.cache ||| BitVec.setWidth 64 v <<< (32 - r.left), index := r.index + 4, left := r.left + 32 },
      by simp only [refill32, hc, Bool.not_true, Bool.false_eq_true, if_false, h1, ok_bind, buildCache, shlPanic,
      usub_ok hl, if_pos (show 32 - r.left < 64 by omega), pure_eq_ok], rfl, rfl⟩

theorem get32_any (e : Endian) (r : Reader) (hl : r.left ≤ 64) (n : Nat) :
    match panicOf e r (.get32 n) with
    | some p => get_bits_32 e r n = .error p
    | none => ∃ v r', get_bits_32 e r n = .ok (v, r') ∧ r'.buffer = r.buffer ∧ r'.left ≤ 64 := by
  by_cases h0 : n = 0
  · subst h0
    have : panicOf e r (.get32 0) = none := by cases e <;> simp [panicOf]
    rw [this]
    exact ⟨_, r, by simp [get_bits_32]; rfl, rfl, hl⟩
  have fin : ∀ r1 : Reader, (if r.left ≤ n then refill32 e r else .ok r) = .ok r1 → r1.buffer = r.buffer →
      r1.left - n ≤ 64 → (e = .le ∨ n % 2 ^ 32 ≤ 64) →
      ∃ v r', get_bits_32 e r n = .ok (v, r') ∧ r'.buffer = r.buffer ∧ r'.left ≤ 64 := by
    intro r1 h1 h2 h3 h4
    have : ∃ v, getVal e r1 n = .ok (v, skipRem e r1 n) := by
      cases e
      · exact getVal_le r1 n
      · exact getVal_be (by rcases h4 with h4 | h4; cases h4; exact h4)
    obtain ⟨v, hv⟩ := this
    exact ⟨_, _, by simp only [get_bits_32, if_neg h0, h1, ok_bind, hv, pure_eq_ok]; rfl, by simp [h2], by simpa using h3⟩
  by_cases h1 : r.left ≤ n
  · by_cases h2 : r.index + 8 ≤ r.buffer.length
    · have hc : canRefill r = true := decide_eq_true h2
      obtain ⟨w, hw, _⟩ := fill32_spec e r hc
      cases e
      · by_cases h3 : r.left = 64
        · have hp : panicOf .le r (.get32 n) = some .shift := if_pos ⟨h0, h1, h2, h3⟩
          rw [hp]
          simp only [get_bits_32, if_neg h0, if_pos h1, refill32, hc, Bool.not_true, Bool.false_eq_true, if_false, hw,
            ok_bind, buildCache, shlPanic, if_neg (show ¬ r.left < 64 by omega), error_bind]
        · simp only [panicOf, h3, and_false, if_false]
          obtain ⟨r1, a1, a2, a3⟩ := refill32_any .le r h2 (show r.left < 64 by omega)
          exact fin r1 (by rw [if_pos h1]; exact a1) a2 (by omega) (.inl rfl)
      · by_cases h3 : 32 < r.left
        · simp only [panicOf, ne_eq, h0, not_false_eq_true, h1, h2, h3, and_self, true_or, if_true]
          simp only [get_bits_32, if_neg h0, if_pos h1, refill32, hc, Bool.not_true, Bool.false_eq_true, if_false, hw,
            ok_bind, buildCache, usub, if_neg (Nat.not_le.mpr h3), error_bind]
        · obtain ⟨r1, a1, a2, a3⟩ := refill32_any .be r h2 (show r.left ≤ 32 by omega)
          by_cases h4 : 64 < n % 2 ^ 32
          · simp only [panicOf, ne_eq, h0, not_false_eq_true, h4, or_true, and_self, if_true]
            simp only [get_bits_32, if_neg h0, if_pos h1, a1, ok_bind, getVal_be_panic h4, error_bind]
          · simp only [panicOf, h3, h4, and_false, or_self, if_false]
            exact fin r1 (by rw [if_pos h1]; exact a1) a2 (by omega) (.inr (by omega))
    · have hc : canRefill r = false := decide_eq_false h2
      have a1 : (if r.left ≤ n then refill32 e r else .ok r) = .ok r := by rw [if_pos h1, refill32_no e r hc]
      cases e
      · simp only [panicOf, h2, false_and, and_false, if_false]
        exact fin r a1 rfl (by omega) (.inl rfl)
      · by_cases h4 : 64 < n % 2 ^ 32
        · simp only [panicOf, ne_eq, h0, not_false_eq_true, h4, or_true, and_self, if_true]
          simp only [get_bits_32, if_neg h0, a1, ok_bind, getVal_be_panic h4, error_bind]
        · simp only [panicOf, h2, h4, false_and, and_false, or_self, if_false]
          exact fin r a1 rfl (by omega) (.inr (by omega))
  · have a1 : (if r.left ≤ n then refill32 e r else .ok r) = .ok r := by rw [if_neg h1]
    have h4 : ¬ 64 < n % 2 ^ 32 := by
      have := Nat.mod_le n (2 ^ 32)
      omega
    cases e
    · simp only [panicOf, h1, false_and, and_false, if_false]
      exact fin r a1 rfl (by omega) (.inl rfl)
    · simp only [panicOf, h1, h4, false_and, and_false, or_self, if_false]
      exact fin r a1 rfl (by omega) (.inr (by omega))

theorem refill64_any (e : Endian) (r : Reader) (hl : r.left ≤ 64) :
    ∃ r', refill64 e r = .ok r' ∧ r'.buffer = r.buffer ∧ r'.left ≤ 64 := by
  by_cases h : canRefill r = true
  · obtain ⟨r', h1, h2, _, h3, _⟩ := refill64_yes e r h
    exact ⟨r', h1, h2, by omega⟩
  · exact ⟨r, refill64_no e r (by simpa using h), rfl, hl⟩

theorem get64_any (e : Endian) (r : Reader) (hl : r.left ≤ 64) (n : Nat) :
    match panicOf e r (.get64 n) with
    | some p => get_bits_64 e r n = .error p
    | none => ∃ v r', get_bits_64 e r n = .ok (v, r') ∧ r'.buffer = r.buffer ∧ r'.left ≤ 64 := by
  by_cases h0 : n = 0
  · subst h0
    have : panicOf e r (.get64 0) = none := by cases e <;> simp [panicOf]
    rw [this]
    exact ⟨_, r, by simp [get_bits_64]; rfl, rfl, hl⟩
  by_cases h1 : r.left < n
  · obtain ⟨ret, hr, _⟩ := getVal_spec e r (n := r.left) hl
    obtain ⟨r1, a1, a2, a3⟩ := refill64_any e (skipRem e r r.left) (by simp)
    rw [skipRem_buffer] at a2
    cases e
    · obtain ⟨v, hv⟩ := getVal_le r1 (n - r.left)
      by_cases h2 : r.left = 64
      · have h3 : 64 < n := by omega
        have hp : panicOf .le r (.get64 n) = some .shift := if_pos ⟨h2, h3⟩
        rw [hp]
        simp only [get_bits_64, if_neg h0, if_pos h1, hr, ok_bind, a1, hv, mergeVal, shlPanic,
          if_neg (show ¬ r.left < 64 by omega), error_bind]
      · simp only [panicOf, h2, false_and, if_false]
        exact ⟨_, _, by simp only [get_bits_64, if_neg h0, if_pos h1, hr, ok_bind, a1, hv, mergeVal, shlPanic,
          if_pos (show r.left < 64 by omega), pure_eq_ok]; rfl, by simp [a2], by simp; omega⟩
    · by_cases h2 : 64 < (n - r.left) % 2 ^ 32
      · simp only [panicOf, h1, h2, and_self, if_true]
        simp only [get_bits_64, if_neg h0, if_pos h1, hr, ok_bind, a1, getVal_be_panic h2, error_bind]
      · simp only [panicOf, h2, and_false, if_false]
        obtain ⟨v, hv⟩ := getVal_be (r := r1) (n := n - r.left) (by omega)
        exact ⟨_, _, by simp only [get_bits_64, if_neg h0, if_pos h1, hr, ok_bind, a1, hv, mergeVal, pure_eq_ok]; rfl,
          by simp [a2], by simp; omega⟩
  · obtain ⟨v, hv, _⟩ := getVal_spec e r (n := n) (by omega)
    have hp : panicOf e r (.get64 n) = none := by
      cases e
      · simp [panicOf, show ¬ (r.left = 64 ∧ 64 < n) by omega]
      · simp [panicOf, h1]
    rw [hp]
    have hm : ∃ m, mergeVal e v 0 0 n = .ok m := by cases e <;> exact ⟨_, rfl⟩
    obtain ⟨m, hm⟩ := hm
    exact ⟨m, skipRem e r n, by simp only [get_bits_64, if_neg h0, if_neg h1, ok_bind, hv, hm, pure_eq_ok], by simp,
      by simp; omega⟩

theorem getBit_any (e : Endian) (r : Reader) (hl : r.left ≤ 64) :
    ∃ b r', get_bit e r = .ok (b, r') ∧ r'.buffer = r.buffer ∧ r'.left ≤ 64 := by
  obtain ⟨r1, a1, a2, a3⟩ : ∃ r1, (if r.left = 0 then refill64 e r else .ok r) = .ok r1 ∧ r1.buffer = r.buffer ∧
      r1.left ≤ 64 := by
    by_cases h : r.left = 0
    · rw [if_pos h]; exact refill64_any e r hl
    · exact ⟨r, by rw [if_neg h], rfl, hl⟩
  obtain ⟨v, hv, _⟩ := getVal_spec e r1 (n := 1) (by omega)
  exact ⟨_, _, by simp only [get_bit, a1, ok_bind, hv, pure_eq_ok]; rfl, by simp [a2], by simp; omega⟩

theorem skip_any (e : Endian) (r : Reader) (hl : r.left ≤ 64) (n : Nat) :
    ∃ r', skip_bits e r n = .ok r' ∧ r'.buffer = r.buffer ∧ r'.left ≤ 64 := by
  by_cases h : r.left < n
  · by_cases h64 : n - r.left > 64
    · obtain ⟨r', a1, a2, a3⟩ := refill64_any e (skipRem e { r with index := r.index + (n - r.left) / 8 }
        (n - r.left - (n - r.left) / 8 * 8)) (by simp; omega)
      exact ⟨_, by simp only [skip_bits, h, h64, if_true, a1, ok_bind, pure_eq_ok]; rfl, by simp [a2], by simp; omega⟩
    · obtain ⟨r', a1, a2, a3⟩ := refill64_any e (skipRem e r (n - r.left)) (by simp; omega)
      exact ⟨_, by simp only [skip_bits, h, h64, if_true, if_false, a1, ok_bind, pure_eq_ok]; rfl, by simp [a2],
        by simp; omega⟩
  · exact ⟨_, by simp only [skip_bits, h, if_false]; rfl, by simp, by simp; omega⟩

theorem step_any (e : Endian) (r : Reader) (hl : r.left ≤ 64) (op : Op) :
    match panicOf e r op with
    | some p => step e r op = .error p
    | none => ∃ v r', step e r op = .ok (v, r') ∧ r'.buffer = r.buffer ∧ r'.left ≤ 64 := by
  cases op with
  | getBit =>
    obtain ⟨b, r', h1, h2, h3⟩ := getBit_any e r hl
    exact ⟨_, r', by simp only [step, h1, ok_bind, pure_eq_ok]; rfl, h2, h3⟩
  | peekBit =>
    obtain ⟨b, r', h1, _⟩ := getBit_any e r hl
    exact ⟨_, r, by simp only [step, peek_bit, h1, ok_bind, pure_eq_ok]; rfl, rfl, hl⟩
  | skip n =>
    obtain ⟨r', h1, h2⟩ := skip_any e r hl n
    exact ⟨_, r', by simp only [step, h1, ok_bind, pure_eq_ok]; rfl, h2⟩
  | align =>
    obtain ⟨r', h1, h2⟩ := skip_any e r hl (r.left &&& 7)
    exact ⟨_, r', by simp only [step, align_bits, h1, ok_bind, pure_eq_ok]; rfl, h2⟩
  | get32 n =>
    have h := get32_any e r hl n
    cases hp : panicOf e r (.get32 n) with
    | some p => rw [hp] at h; simp only [step, h, error_bind]
    | none =>
      rw [hp] at h
      obtain ⟨v, r', h1, h2⟩ := h
      exact ⟨_, r', by simp only [step, h1, ok_bind, pure_eq_ok]; rfl, h2⟩
  | get64 n =>
    have h := get64_any e r hl n
    cases hp : panicOf e r (.get64 n) with
    | some p => rw [hp] at h; simp only [step, h, error_bind]
    | none =>
      rw [hp] at h
      obtain ⟨v, r', h1, h2⟩ := h
      exact ⟨_, r', by simp only [step, h1, ok_bind, pure_eq_ok]; rfl, h2⟩
  | peek32 n =>
    have h := get32_any e r hl n
    have he : panicOf e r (.peek32 n) = panicOf e r (.get32 n) := rfl
    rw [he]
    cases hp : panicOf e r (.get32 n) with
    | some p => rw [hp] at h; simp only [step, peek_bits_32, h, error_bind]
    | none =>
      rw [hp] at h
      obtain ⟨v, r', h1, _⟩ := h
      exact ⟨_, r, by simp only [step, peek_bits_32, h1, ok_bind, pure_eq_ok]; rfl, rfl, hl⟩
  | peek64 n =>
    have h := get64_any e r hl n
    have he : panicOf e r (.peek64 n) = panicOf e r (.get64 n) := rfl
    rw [he]
    cases hp : panicOf e r (.get64 n) with
    | some p => rw [hp] at h; simp only [step, peek_bits_64, h, error_bind]
    | none =>
      rw [hp] at h
      obtain ⟨v, r', h1, _⟩ := h
      exact ⟨_, r, by simp only [step, peek_bits_64, h1, ok_bind, pure_eq_ok]; rfl, rfl, hl⟩

theorem run_any (e : Endian) (ops : List Op) (p : Panic) : ∀ r : Reader, r.left ≤ 64 →
    (run e r ops = .error p ↔ ∃ pre op post vs r', ops = pre ++ op :: post ∧ run e r pre = .ok (vs, r') ∧
      panicOf e r' op = some p) := by
  induction ops with
  | nil =>
    intro r _
    constructor
    · intro h; cases h
    · rintro ⟨pre, op, post, _, _, h, _⟩; simp at h
  | cons op ops ih =>
    intro r hl
    have hs := step_any e r hl op
    cases hp : panicOf e r op with
    | some q =>
      rw [hp] at hs
      simp only at hs
      have hrun : run e r (op :: ops) = .error q := by simp only [run, hs, error_bind]
      rw [hrun]
      constructor
      · intro h
        cases h
        exact ⟨[], op, ops, [], r, rfl, rfl, hp⟩
      · rintro ⟨pre, op', post, vs, r', h1, h2, h3⟩
        cases pre with
        | nil =>
          simp only [List.nil_append, List.cons.injEq] at h1
          simp only [run, Except.ok.injEq, Prod.mk.injEq] at h2
          rw [← h1.1, ← h2.2, hp] at h3
          rw [Option.some.inj h3]
        | cons o pre =>
          simp only [List.cons_append, List.cons.injEq] at h1
          rw [← h1.1] at h2
          simp only [run, hs, error_bind] at h2
          cases h2
    | none =>
      rw [hp] at hs
      obtain ⟨v, r1, a1, _, a3⟩ := hs
      have hi := ih r1 a3
      have hrun : ∀ q, run e r (op :: ops) = .error q ↔ run e r1 ops = .error q := by
        intro q
        simp only [run, a1, ok_bind]
        cases run e r1 ops with
        | error x => simp [error_bind]
        | ok x => obtain ⟨vs, r2⟩ := x; simp only [ok_bind, pure_eq_ok]; constructor <;> (intro h; cases h)
      rw [hrun, hi]
      constructor
      · rintro ⟨pre, op', post, vs, r', h1, h2, h3⟩
        exact ⟨op :: pre, op', post, v :: vs, r', by rw [h1]; rfl, by simp only [run, a1, ok_bind, h2, pure_eq_ok], h3⟩
      · rintro ⟨pre, op', post, vs, r', h1, h2, h3⟩
        cases pre with
        | nil =>
          simp only [List.nil_append, List.cons.injEq] at h1
          simp only [run, Except.ok.injEq, Prod.mk.injEq] at h2
          rw [← h1.1, ← h2.2, hp] at h3
          cases h3
        | cons o pre =>
          simp only [List.cons_append, List.cons.injEq] at h1
          rw [← h1.1] at h2
          simp only [run, a1, ok_bind] at h2
          cases hr : run e r1 pre with
          | error x => rw [hr] at h2; cases h2
          | ok x =>
            obtain ⟨ws, r2⟩ := x
            rw [hr] at h2
            simp only [ok_bind, pure_eq_ok, Except.ok.injEq, Prod.mk.injEq] at h2
            exact ⟨pre, op', post, ws, r2, h1.2, hr, by rw [h2.2]; exact h3⟩

/-- **C100, the panics exactly** For every buffer and every history of calls of any width: the history panics just
when it reaches a call that `panicOf` names, and with that panic. -/
theorem c100_panics_exact_partial (e : Endian) (buf : List U8) (ops : List Op) (p : Panic) :
    ∃ r0, new e buf = .ok r0 ∧ (run e r0 ops = .error p ↔
      ∃ pre op post vs r, ops = pre ++ op :: post ∧ run e r0 pre = .ok (vs, r) ∧ panicOf e r op = some p) := by
  obtain ⟨r0, h1, _, _, h3⟩ := new_spec e buf
  exact ⟨r0, h1, run_any e ops p r0 h3.left_le⟩

/-- Both sides occur. -/
example : ∃ r0 vs r, new .be c12buf = .ok r0 ∧ run .be r0 [.get64 24] = .ok (vs, r) ∧
    panicOf .be r (.get32 50) = some .overflow ∧ panicOf .be r (.get32 39) = none ∧
    run .be r0 [.get64 24, .get32 50, .skip 3] = .error .overflow := by
  refine ⟨_, _, _, rfl, rfl, ?_⟩
  decide

/-! ### the values -/

theorem wide32_load {e r p} (hs : Synced e r p) {n : Nat} (h0 : n ≠ 0) (h32 : r.left ≤ 32) (h : r.left ≤ n)
    (hn : n ≤ r.left + 32) (hc : canRefill r = true) :
    ∃ v r', get_bits_32 e r n = .ok (v, r') ∧ r'.buffer = r.buffer ∧ Synced e r' (p + n) ∧
      v.toNat = valueAt e r.buffer p n % 2 ^ 32 := by
  obtain ⟨r1, a1, a2, _, a3, a4, _⟩ := refill32_yes e r hc h32
  have hs1 := a4 p hs
  have hp := hs1.pos
  obtain ⟨v, hv1, hv2⟩ := getVal_spec e r1 (n := n) (by omega)
  refine ⟨v.setWidth 32, skipRem e r1 n, ?_, by simp [a2], ?_, ?_⟩
  · simp only [get_bits_32, if_neg h0, if_pos h, a1, ok_bind, hv1, pure_eq_ok]
  · have := hs1.skipRem (n := n) (by omega)
    rwa [show min n r1.left = n by omega] at this
  · have : ReadBits e r1.buffer p n (r1.index * 8) v := by
      intro i; rw [hv2, hs1.cache]
    rw [BitVec.toNat_setWidth, this.toNat_full (by omega), a2]

/-- The mask of a little-endian read keeps the low `k` bits if the width is at least `k`. -/
theorem mask_low {n i : Nat} (hn : n < 2 ^ 32) (hi : i < n) (h64 : i < 64) :
    (checkedShl 1 n - 1 : BitVec 64).getLsbD i = true := by
  by_cases h : n ≤ 64
  · rw [mask_getLsbD h]; simp [hi, h64]
  · have : checkedShl 1 n = 0 := by
      unfold checkedShl
      rw [Nat.mod_eq_of_lt hn, if_neg (by omega)]
    rw [this]
    have : (0 - 1 : BitVec 64) = BitVec.allOnes 64 := by decide
    rw [this, BitVec.getLsbD_allOnes]
    simp [h64]

theorem toNat_low {buf : List U8} {p n k : Nat} {v : BitVec k} (hk : k ≤ n)
    (h : ∀ i, i < k → v.getLsbD i = bit .le buf (p + i)) : v.toNat = valueAt .le buf p n % 2 ^ k := by
  apply Nat.eq_of_testBit_eq
  intro i
  rw [Nat.testBit_mod_two_pow, valueAt_testBit]
  by_cases hi : i < k
  · rw [show v.toNat.testBit i = v.getLsbD i from rfl, h i hi]
    simp [hi, show i < n by omega, ridx]
  · rw [show v.toNat.testBit i = v.getLsbD i from rfl, BitVec.getLsbD_of_ge _ _ (by omega)]
    simp [hi]

/-- Little-endian, 32 bits: the value is right whatever the width. -/
theorem le32_value {r p} (hs : Synced .le r p) {n : Nat} (h32 : 32 ≤ n) (hn : n < 2 ^ 32) (h : r.left ≤ n)
    (hl : r.left < 64) (hc : canRefill r = true) :
    ∃ v r', get_bits_32 .le r n = .ok (v, r') ∧ v.toNat = valueAt .le r.buffer p n % 2 ^ 32 ∧
      consumed r' = .ok (p + min n (r.left + 32)) := by
  obtain ⟨w, h1, h2⟩ := fill32_spec .le r hc
  have hp := hs.pos
  have hr : refill32 .le r = .ok { r with
      cache := r.cache ||| BitVec.setWidth 64 w <<< r.left, index := r.index + 4, left := r.left + 32 } := by
    simp only [refill32, hc, Bool.not_true, Bool.false_eq_true, if_false, h1, ok_bind, buildCache, shlPanic, if_pos hl,
      pure_eq_ok]
  refine ⟨((r.cache ||| BitVec.setWidth 64 w <<< r.left) &&& (checkedShl 1 n - 1)).setWidth 32, skipRem .le { r with
      cache := r.cache ||| BitVec.setWidth 64 w <<< r.left, index := r.index + 4, left := r.left + 32 } n, ?_, ?_, ?_⟩
  · simp only [get_bits_32, if_neg (show n ≠ 0 by omega), if_pos h, hr, ok_bind, getVal, peekVal, pure_eq_ok]
  · refine toNat_low h32 ?_
    intro i hi
    rw [BitVec.getLsbD_setWidth, BitVec.getLsbD_and, mask_low hn (by omega) (by omega), BitVec.getLsbD_or,
      BitVec.getLsbD_shiftLeft, BitVec.getLsbD_setWidth]
    by_cases c : i < r.left
    · have := hs.real i c
      simp only [cacheBit] at this
      simp [c, hi, this]
    · have z := hs.zero i (by omega)
      have y := h2 (i - r.left) (by omega)
      simp only [cacheBit] at z
      simp only at y
      have e1 : 8 * r.index + (i - r.left) = p + i := by omega
      rw [e1] at y
      rw [z, y]
      simp [c, hi, show i < 64 by omega, show i - r.left < 64 by omega]
  · unfold consumed
    rw [skipRem_index, skipRem_left, usub_ok (by simp only; omega)]
    congr 1
    simp only
    omega

/-- Little-endian, 64 bits: the value is right whatever the width. -/
theorem le64_value {r p} (hs : Synced .le r p) {n : Nat} (h64 : 64 ≤ n) (hn : n < 2 ^ 32) (hl : r.left < 64)
    (hc : canRefill r = true) :
    ∃ v r', get_bits_64 .le r n = .ok (v, r') ∧ v.toNat = valueAt .le r.buffer p n % 2 ^ 64 ∧
      consumed r' = .ok (p + min n (r.left + 64)) := by
  have hp := hs.pos
  obtain ⟨ret, hr1, hr2⟩ := getVal_spec .le r (n := r.left) hs.left_le
  obtain ⟨r1, hf, a2, a3, a4, hs1⟩ := refill64_yes .le (skipRem .le r r.left) (by simpa [canRefill] using hc)
  rw [skipRem_index] at a3 hs1
  have hb : r1.buffer = r.buffer := by simp [a2]
  rw [hp] at hs1
  refine ⟨(r1.cache &&& (checkedShl 1 (n - r.left) - 1)) <<< r.left ||| ret, skipRem .le r1 (n - r.left), ?_, ?_, ?_⟩
  · simp only [get_bits_64, if_neg (show n ≠ 0 by omega), if_pos (show r.left < n by omega), hr1, ok_bind, hf]
    simp only [getVal, peekVal, ok_bind, mergeVal, shlPanic, if_pos hl, pure_eq_ok]
  · refine toNat_low h64 ?_
    intro i hi
    rw [BitVec.getLsbD_or, BitVec.getLsbD_shiftLeft, hr2, hs.cache]
    simp only [ridx]
    by_cases c : i < r.left
    · rw [lbit_lt (lim := r.index * 8) (by omega)]
      simp [c]
    · have := hs1.cache (i - r.left)
      rw [lbit_lt (lim := r1.index * 8) (by omega), hb, show p + r.left + (i - r.left) = p + i by omega] at this
      simp only [cacheBit] at this
      rw [BitVec.getLsbD_and, mask_low (by omega) (by omega) (by omega), this]
      simp [c, hi]
  · unfold consumed
    rw [skipRem_index, skipRem_left, usub_ok (by omega)]
    congr 1
    omega

/-- **C100, partial** After any in-data history, with eight bytes still to load: a read wider than its result
delivers the low bits of the number formed and moves by the full width, if it can be served from what is cached and
one load (with at most 32 bits cached for `get_bits_32`; fewer than 64 for the little-endian `get_bits_64`). The
little-endian readers return the right value for every width unless they panic, but move only over what they had
loaded. Missing for C100: the other cases, in which it is false. -/
theorem c100_wide_partial (e : Endian) (buf : List U8) (pre : List Op) (hpre : within buf 0 pre) :
    ∃ r0 vs r p, new e buf = .ok r0 ∧ run e r0 pre = .ok (vs, r) ∧ consumed r = .ok p ∧
      (r.index + 8 ≤ buf.length →
        (∀ n, n ≠ 0 → r.left ≤ 32 → n ≤ r.left + 32 → ∃ v r', get_bits_32 e r n = .ok (v, r') ∧
          v.toNat = valueAt e buf p n % 2 ^ 32 ∧ consumed r' = .ok (p + n)) ∧
        (∀ n, 64 < n → (e = .le → r.left < 64) → n ≤ r.left + 64 → ∃ v r', get_bits_64 e r n = .ok (v, r') ∧
          v.toNat = valueAt e buf p n % 2 ^ 64 ∧ consumed r' = .ok (p + n)) ∧
        (e = .le → ∀ n, 32 ≤ n → n < 2 ^ 32 → panicOf .le r (.get32 n) = none → ∃ v r',
          get_bits_32 .le r n = .ok (v, r') ∧ v.toNat = valueAt .le buf p n % 2 ^ 32 ∧
          consumed r' = .ok (p + if n < r.left then n else min n (r.left + 32))) ∧
        (e = .le → ∀ n, 64 < n → n < 2 ^ 32 → panicOf .le r (.get64 n) = none → ∃ v r',
          get_bits_64 .le r n = .ok (v, r') ∧ v.toNat = valueAt .le buf p n % 2 ^ 64 ∧
          consumed r' = .ok (p + min n (r.left + 64)))) := by
  obtain ⟨r0, h1, h2, _, h3⟩ := new_spec e buf
  obtain ⟨r, h4, h5, h6⟩ := run_within h3 pre (by rw [h2]; exact hpre)
  rw [h2] at h4 h5 h6
  refine ⟨r0, _, r, _, h1, h4, h6.consumed, ?_⟩
  intro hin
  have hc : canRefill r = true := by unfold canRefill; rw [h5]; exact decide_eq_true hin
  have hl := h6.left_le
  refine ⟨?_, ?_, ?_, ?_⟩
  · intro n h0 h32 hn
    by_cases hlt : r.left ≤ n
    · obtain ⟨v, r', a1, a2, a3, a4⟩ := wide32_load h6 h0 h32 hlt hn hc
      exact ⟨v, r', a1, by rw [a4, h5], a3.consumed⟩
    · obtain ⟨v, r', a1, a2, a3, a4⟩ := wide32 h6 h0 (by omega)
      exact ⟨v, r', a1, by rw [a4, h5], a3.consumed⟩
  · intro n h64 hl hn
    obtain ⟨v, r', a1, a2, a3, a4⟩ := wide64 h6 h64 hl (by omega) hc
    exact ⟨v, r', a1, by rw [a4, h5], a3.consumed⟩
  · intro he n h32 hn hp
    subst he
    by_cases hlt : n < r.left
    · obtain ⟨v, r', a1, a2, a3, a4⟩ := wide32 h6 (by omega) hlt
      exact ⟨v, r', a1, by rw [a4, h5], by rw [if_pos hlt]; exact a3.consumed⟩
    · have hne : r.left ≠ 64 := by
        intro h
        simp [panicOf, h5, hin, h, show n ≠ 0 by omega, show 64 ≤ n by omega] at hp
      obtain ⟨v, r', a1, a2, a3⟩ := le32_value h6 h32 hn (by omega) (by omega) hc
      exact ⟨v, r', a1, by rw [a2, h5], by rw [if_neg hlt]; exact a3⟩
  · intro he n h64 hn hp
    subst he
    have hne : r.left ≠ 64 := by
      intro h
      simp [panicOf, h, h64] at hp
    obtain ⟨v, r', a1, a2, a3⟩ := le64_value h6 (by omega) hn (by omega) hc
    exact ⟨v, r', a1, by rw [a2, h5], a3⟩

example : ∃ r0 vs r, new .le c12buf = .ok r0 ∧ run .le r0 [.get64 40] = .ok (vs, r) ∧ r.left = 24 ∧
    r.index + 8 ≤ c12buf.length ∧ panicOf .le r (.get32 70) = none ∧ panicOf .le r (.get64 70) = none := by
  refine ⟨_, _, _, rfl, rfl, ?_⟩
  decide

end Verif.BitRead
