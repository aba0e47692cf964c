import Verif.BitRead.Exact
import Verif.Data.Arith

/-!
# C99: the position arithmetic of the bit readers, with 64-bit `usize`

`Verif.BitRead.Model` adds and multiplies positions without bound. Here are the same functions with the overflow
checks of Rust, and the condition under which the two agree.
-/

namespace Verif.BitRead
open Verif Verif.Bytes Verif.Data

/-- bitread.rs:266-268, 311-313: `self.index + 8 <= self.buffer.len()` -/
def canRefillC (r : Reader) : Rust Bool := do return decide ((← uadd r.index 8) ≤ r.buffer.length)

/-- bitread.rs:166-176 -/
def refill32C (e : Endian) (r : Reader) : Rust Reader := do
  if !(← canRefillC r) then return r
  else do
    let val ← fill32 e r
    let cache ← buildCache e r.cache val r.left
    let index ← uadd r.index 4
    let left ← uadd r.left 32
    return { r with cache := cache, index := index, left := left }

/-- bitread.rs:178-186 -/
def refill64C (e : Endian) (r : Reader) : Rust Reader := do
  if !(← canRefillC r) then return r
  else do
    let cache ← fill64 e r
    let index ← uadd r.index 8
    return { r with cache := cache, index := index, left := 64 }

/-- bitread.rs:190-200 -/
def newC (e : Endian) (buffer : List U8) : Rust Reader :=
  refill64C e { buffer, index := 0, cache := 0, left := 0 }

/-- bitread.rs:202-204 -/
def consumedC (r : Reader) : Rust Nat := do usub (← umul r.index 8) r.left

/-- bitread.rs:207-209 -/
def availableC (r : Reader) : Rust Nat := do
  uadd (← umul (← usub r.buffer.length r.index) 8) r.left

/-- bitread.rs:212-226 -/
def skip_bitsC (e : Endian) (r : Reader) (n : Nat) : Rust Reader :=
  if r.left < n then do
    let n := n - r.left
    let (n, r) ← (if n > 64 then do
        let skip := n / 8
        let n ← usub n (← umul skip 8)
        let index ← uadd r.index skip
        return (n, { r with index := index })
      else return (n, r))
    let r := skipRem e r n
    let r ← refill64C e r
    return skipRem e r n
  else .ok (skipRem e r n)

/-- bitread.rs:66-72 -/
def get_bitC (e : Endian) (r : Reader) : Rust (Bool × Reader) := do
  let r ← (if r.left = 0 then refill64C e r else .ok r)
  let (v, r) ← getVal e r 1
  return (v != 0, r)

/-- bitread.rs:76-92 -/
def get_bits_64C (e : Endian) (r : Reader) (n : Nat) : Rust (BitVec 64 × Reader) :=
  if n = 0 then .ok (0, r)
  else do
    let (n, left, ret, r) ←
      if r.left < n then do
        let left := r.left
        let (ret, r') ← getVal e r left
        let r' ← refill64C e r'
        .ok (n - left, left, ret, r')
      else .ok (n, 0, 0, r)
    let (v, r) ← getVal e r n
    return (← mergeVal e v ret left n, r)

/-- bitread.rs:96-106 -/
def get_bits_32C (e : Endian) (r : Reader) (n : Nat) : Rust (BitVec 32 × Reader) :=
  if n = 0 then .ok (0, r)
  else do
    let r ← (if r.left ≤ n then refill32C e r else .ok r)
    let (v, r) ← getVal e r n
    return (v.setWidth 32, r)

/-- bitread.rs:110-114, 118-122, 126-130, 134-138: the peeks read from a copy; `align_bits` skips `left & 7` -/
def stepC (e : Endian) (r : Reader) : Op → Rust (Option Nat × Reader)
  | .getBit => do let (b, r) ← get_bitC e r; return (some b.toNat, r)
  | .get32 n => do let (v, r) ← get_bits_32C e r n; return (some v.toNat, r)
  | .get64 n => do let (v, r) ← get_bits_64C e r n; return (some v.toNat, r)
  | .skip n => do let r ← skip_bitsC e r n; return (none, r)
  | .align => do let r ← skip_bitsC e r (r.left &&& 7); return (none, r)
  | .peekBit => do let (b, _) ← get_bitC e r; return (some b.toNat, r)
  | .peek32 n => do let (v, _) ← get_bits_32C e r n; return (some v.toNat, r)
  | .peek64 n => do let (v, _) ← get_bits_64C e r n; return (some v.toNat, r)

/-- A history of calls, as `run`. -/
def runC (e : Endian) (r : Reader) : List Op → Rust (List (Option Nat) × Reader)
  | [] => .ok ([], r)
  | op :: ops => do
    let (v, r) ← stepC e r op
    let (vs, r) ← runC e r ops
    return (v :: vs, r)

/-! ### Agreement -/

theorem canRefillC_eq (r : Reader) (h : r.index + 8 < 2 ^ 64) : canRefillC r = .ok (canRefill r) := by
  simp only [canRefillC, uadd_ok h, ok_bind, pure_eq_ok, canRefill]

theorem refill64C_eq (e : Endian) (r : Reader) (h : r.index + 8 < 2 ^ 64) : refill64C e r = refill64 e r := by
  simp only [refill64C, refill64, canRefillC_eq r h, uadd_ok h, ok_bind, pure_eq_ok]

theorem refill32C_eq (e : Endian) (r : Reader) (h : r.index + 8 < 2 ^ 64) (hl : r.left ≤ 64) :
    refill32C e r = refill32 e r := by
  have h4 : r.index + 4 < 2 ^ 64 := by omega
  have h5 : r.left + 32 < 2 ^ 64 := by omega
  simp only [refill32C, refill32, canRefillC_eq r h, uadd_ok h4, uadd_ok h5, ok_bind, pure_eq_ok]

theorem get_bitC_eq (e : Endian) (r : Reader) (h : r.index + 8 < 2 ^ 64) : get_bitC e r = get_bit e r := by
  simp only [get_bitC, get_bit, refill64C_eq e r h]

theorem get_bits_32C_eq (e : Endian) (r : Reader) (n : Nat) (h : r.index + 8 < 2 ^ 64) (hl : r.left ≤ 64) :
    get_bits_32C e r n = get_bits_32 e r n := by
  simp only [get_bits_32C, get_bits_32, refill32C_eq e r h hl]

theorem get_bits_64C_eq (e : Endian) (r : Reader) (n : Nat) (h : r.index + 8 < 2 ^ 64) :
    get_bits_64C e r n = get_bits_64 e r n := by
  have key : ∀ k, ∀ x, getVal e r k = .ok x → refill64C e x.2 = refill64 e x.2 := by
    intro k x hx
    unfold getVal at hx
    cases hp : peekVal e r k with
    | error _ => rw [hp] at hx; exact nomatch hx
    | ok v =>
      rw [hp] at hx
      cases hx
      exact refill64C_eq e _ (by simpa using h)
  unfold get_bits_64C get_bits_64
  by_cases h0 : n = 0
  · simp only [h0, if_true]
  · by_cases hl : r.left < n
    · simp only [h0, hl, if_true, if_false]
      cases hg : getVal e r r.left with
      | error _ => rfl
      | ok x =>
        simp only [ok_bind]
        rw [key _ _ hg]
    · simp only [h0, hl, if_false]

/-- How far a call may jump. -/
def jumpOf : Op → Nat
  | .skip n => n / 8
  | _ => 0

theorem skip_bitsC_eq (e : Endian) (r : Reader) (n : Nat) (h : r.index + n / 8 < 2 ^ 61) :
    skip_bitsC e r n = skip_bits e r n := by
  unfold skip_bitsC skip_bits
  by_cases hn : r.left < n
  · simp only [hn, if_true]
    have hd : (n - r.left) / 8 ≤ n / 8 := Nat.div_le_div_right (by omega)
    by_cases h64 : n - r.left > 64
    · by_cases hbig : n - r.left < 2 ^ 64
      · have h1 : (n - r.left) / 8 * 8 < 2 ^ 64 := by omega
        have h2 : r.index + (n - r.left) / 8 < 2 ^ 64 := by omega
        simp only [h64, if_true, umul_ok h1, uadd_ok h2, ok_bind, pure_eq_ok,
          usub_ok (show (n - r.left) / 8 * 8 ≤ n - r.left by omega)]
        rw [refill64C_eq e _ (by simp only [skipRem_index]; omega)]
      · omega
    · simp only [h64, if_false, ok_bind, pure_eq_ok]
      rw [refill64C_eq e _ (by simp only [skipRem_index]; omega)]
  · simp only [hn, if_false]

theorem stepC_eq (e : Endian) (r : Reader) (op : Op) (hl : r.left ≤ 64) (h : r.index + jumpOf op < 2 ^ 61) :
    stepC e r op = step e r op := by
  have h8 : r.index + 8 < 2 ^ 64 := by omega
  have ha : r.index + (r.left &&& 7) / 8 < 2 ^ 61 := by
    have : r.left &&& 7 = r.left % 8 := Nat.and_two_pow_sub_one_eq_mod r.left 3
    rw [this]; omega
  cases op with
  | getBit => simp only [stepC, step, get_bitC_eq e r h8]
  | get32 n => simp only [stepC, step, get_bits_32C_eq e r n h8 hl]
  | get64 n => simp only [stepC, step, get_bits_64C_eq e r n h8]
  | skip n => simp only [stepC, step, skip_bitsC_eq e r n h]
  | align => simp only [stepC, step, align_bits, skip_bitsC_eq e r _ ha]
  | peekBit =>
    simp only [stepC, step, peek_bit, get_bitC_eq e r h8]
    cases get_bit e r <;> rfl
  | peek32 n =>
    simp only [stepC, step, peek_bits_32, get_bits_32C_eq e r n h8 hl]
    cases get_bits_32 e r n <;> rfl
  | peek64 n =>
    simp only [stepC, step, peek_bits_64, get_bits_64C_eq e r n h8]
    cases get_bits_64 e r n <;> rfl

theorem Cur.next_idx (len : Nat) (c : Cur) (op : Op) : (c.next len op).idx ≤ max len (c.idx + jumpOf op) := by
  have hload : ∀ k, k ≤ 8 → (c.load len k).idx ≤ max len c.idx := by
    intro k hk
    unfold Cur.load
    split
    · simp only; omega
    · omega
  cases op with
  | getBit =>
    simp only [Cur.next, Cur.prepare, Cur.drop, jumpOf]
    split
    · exact hload 8 (by omega)
    · omega
  | get64 n =>
    simp only [Cur.next, Cur.prepare, Cur.drop, jumpOf]
    split
    · exact hload 8 (by omega)
    · omega
  | get32 n =>
    simp only [Cur.next, Cur.prepare, Cur.drop, jumpOf]
    split
    · exact hload 4 (by omega)
    · omega
  | skip n =>
    simp only [Cur.next, Cur.skip, jumpOf]
    have hd : (n - c.left) / 8 ≤ n / 8 := Nat.div_le_div_right (by omega)
    split
    · simp only [Cur.drop]; omega
    · generalize hj : (if n - c.left > 64 then (n - c.left) / 8 else 0) = j
      have : j ≤ n / 8 := by split at hj <;> omega
      split
      · simp only; omega
      · simp only [Cur.drop]; omega
  | align => simp only [Cur.next, Cur.drop, jumpOf]; omega
  | peekBit => simp only [Cur.next]; omega
  | peek32 n => simp only [Cur.next]; omega
  | peek64 n => simp only [Cur.next]; omega

/-- Bytes skipped in a history. -/
def skipped : List Op → Nat
  | [] => 0
  | op :: ops => jumpOf op + skipped ops

theorem runC_eq {e r c} (h : Follows e r c) (ops : List Op) (hw : ∀ op ∈ ops, widthOk op)
    (hb : max r.buffer.length c.idx + skipped ops < 2 ^ 61) :
    runC e r ops = run e r ops ∧
      (Cur.run e r.buffer c ops).2.idx ≤ max r.buffer.length c.idx + skipped ops := by
  induction ops generalizing r c with
  | nil => exact ⟨rfl, by simp only [Cur.run]; omega⟩
  | cons op ops ih =>
    obtain ⟨r1, a1, a2, a3⟩ := step_follows h op (hw op (by simp))
    have hn := Cur.next_idx r.buffer.length c op
    simp only [skipped] at hb ⊢
    obtain ⟨b1, b2⟩ := ih a3 (fun o ho => hw o (by simp [ho])) (by rw [a2]; omega)
    rw [a2] at b2
    have hs : stepC e r op = step e r op := stepC_eq e r op h.left.2.2 (by rw [h.idx]; omega)
    refine ⟨?_, ?_⟩
    · simp only [runC, run, hs, a1, ok_bind, b1]
    · simp only [Cur.run]; omega

/-- **C99, partial** While the buffer and all skips together amount to less than `2^61` bytes, no position overflows:
results, `consumed` and `available` are those of the model with unbounded positions. Missing: longer skips, for which
C99 is false. -/
theorem c99_partial (e : Endian) (buf : List U8) (ops : List Op) (hw : ∀ op ∈ ops, widthOk op)
    (hb : buf.length + skipped ops < 2 ^ 61) :
    ∃ r0 vs r, newC e buf = .ok r0 ∧ new e buf = .ok r0 ∧ runC e r0 ops = .ok (vs, r) ∧ run e r0 ops = .ok (vs, r) ∧
      consumedC r = consumed r ∧ availableC r = available r := by
  obtain ⟨r0, h1, h2, h3⟩ := new_follows e buf
  obtain ⟨r, a1, a2, a3⟩ := run_follows h3 ops hw
  have hi : (Cur.start buf.length).idx ≤ buf.length := by
    unfold Cur.start Cur.load
    split
    · simp only; omega
    · simp
  obtain ⟨b1, b2⟩ := runC_eq h3 ops hw (by rw [h2]; omega)
  rw [h2] at b2 a2 a3
  refine ⟨r0, _, r, ?_, h1, b1.trans a1, a1, ?_, ?_⟩
  · rw [← h1]
    exact refill64C_eq e _ (by simp)
  · have : r.index * 8 < 2 ^ 64 := by rw [a3.idx]; omega
    simp only [consumedC, consumed, umul_ok this, ok_bind]
  · unfold availableC available
    by_cases hc : r.index ≤ r.buffer.length
    · rw [usub_ok hc]
      have e1 : (r.buffer.length - r.index) * 8 < 2 ^ 64 := by rw [a2]; omega
      have e2 : (r.buffer.length - r.index) * 8 + r.left < 2 ^ 64 := by
        have h6 := a3.left
        have h7 := a3.lim_idx
        have h8 := a3.idx
        unfold Cur.left at h6
        rw [a2]; omega
      simp only [ok_bind, umul_ok e1, uadd_ok e2, pure_eq_ok]
    · simp [usub, hc]

example : (∀ op ∈ [Op.get32 7, .skip (2 ^ 63), .get64 64], widthOk op) ∧
    sample.length + skipped [Op.get32 7, .skip (2 ^ 63), .get64 64] < 2 ^ 61 := by decide

/-- **C99 fails** Two skips by `usize::MAX` bits, of any of the readers, and `consumed` overflows; with nine of them,
`skip_bits` itself does. The unbounded model of the other files does not show this. -/
theorem c99_fails (e : Endian) : ∃ r0 r,
    newC e sample = .ok r0 ∧ runC e r0 (List.replicate 2 (.skip (2 ^ 64 - 1))) = .ok ([none, none], r) ∧
      consumedC r = .error .overflow ∧
      runC e r0 (List.replicate 9 (.skip (2 ^ 64 - 1))) = .error .overflow := by
  cases e
  · exact ⟨_, _, rfl, rfl, by decide +kernel, by decide +kernel⟩
  · exact ⟨_, _, rfl, rfl, by decide +kernel, by decide +kernel⟩

end Verif.BitRead
