import Verif.BitRead.Exact
import Verif.BitRead.AnyWidth

/-!
# C138: the building blocks of the bit readers

The traits `BitReadEndian`, `BitReadFill` and `BitReadInternal` (bitread.rs:10-50) are public: a caller may look at the
cache, take bits from it and refill it, between any other calls. Histories here mix these with the calls of `BitRead`.
-/

namespace Verif.BitRead
open Verif Verif.Bytes

/-- A call of any method: one of `BitRead`, or of the three traits below it. -/
inductive LowOp
  | call (op : Op) | peekVal (n : Nat) | getVal (n : Nat) | skipRem (n : Nat) | refill32 | refill64 | fill32 | fill64
  | canRefill | left
  deriving DecidableEq, Repr

/-- One call; the result is the returned number, if the method returns one (`bool` as 0/1).
`left`: bitread.rs:162-164. -/
def lowStep (e : Endian) (r : Reader) : LowOp → Rust (Option Nat × Reader)
  | .call op => step e r op
  | .peekVal n => do let v ← peekVal e r n; return (some v.toNat, r)
  | .getVal n => do let (v, r) ← getVal e r n; return (some v.toNat, r)
  | .skipRem n => .ok (none, skipRem e r n)
  | .refill32 => do let r ← refill32 e r; return (none, r)
  | .refill64 => do let r ← refill64 e r; return (none, r)
  | .fill32 => do let v ← fill32 e r; return (some v.toNat, r)
  | .fill64 => do let v ← fill64 e r; return (some v.toNat, r)
  | .canRefill => .ok (some (canRefill r).toNat, r)
  | .left => .ok (some r.left, r)

def lowRun (e : Endian) (r : Reader) : List LowOp → Rust (List (Option Nat) × Reader)
  | [] => .ok ([], r)
  | op :: ops => do
    let (v, r) ← lowStep e r op
    let (vs, r) ← lowRun e r ops
    return (v :: vs, r)

/-! ### specification -/

/-- What a call asks for: no more bits from the cache than `left()` says it holds, a refill only if it fits beside
what is there, `fill` only if `can_refill()`, and reads inside the data (as in C04 and C05). -/
def Asked (r : Reader) (p : Nat) : LowOp → Prop
  | .call op => widthOk op ∧ reach p op + 64 ≤ 8 * r.buffer.length
  | .peekVal n | .getVal n | .skipRem n => n ≤ r.left
  | .refill32 => r.left ≤ 32
  | .refill64 => r.left = 0
  | .fill32 | .fill64 => canRefill r = true
  | .canRefill | .left => True

/-- Where a call leaves the position in the stream. -/
def lowNext (p : Nat) : LowOp → Nat
  | .call op => nextPos p op
  | .getVal n | .skipRem n => p + n
  | .peekVal _ | .refill32 | .refill64 | .fill32 | .fill64 | .canRefill | .left => p

/-- Every call of the history keeps the contract when it is made. -/
def Keeps (e : Endian) (r : Reader) (p : Nat) : List LowOp → Prop
  | [] => True
  | op :: ops => Asked r p op ∧ match lowStep e r op with
    | .ok (_, r') => Keeps e r' (lowNext p op) ops
    | .error _ => True

instance (r : Reader) (p : Nat) (op : LowOp) : Decidable (Asked r p op) := by
  cases op <;> unfold Asked <;> infer_instance

instance instDecKeeps (e : Endian) : (r : Reader) → (p : Nat) → (ops : List LowOp) → Decidable (Keeps e r p ops)
  | _, _, [] => isTrue trivial
  | r, p, op :: ops => by
    unfold Keeps
    cases lowStep e r op with
    | ok x =>
      have := instDecKeeps e x.2 (lowNext p op) ops
      show Decidable (Asked r p op ∧ Keeps e x.2 (lowNext p op) ops)
      infer_instance
    | error _ => infer_instance

/-- What a call at position `p` may return: reads and the bits of the cache are those of the stream from `p` on; the
cache ends with a whole byte `i` of the stream, behind which `fill32`, `fill64` read and `can_refill` looks. -/
def Right (e : Endian) (buf : List U8) (p : Nat) : LowOp → Option Nat → Prop
  | .call op, v => v = specVal e buf p op
  | .peekVal n, v | .getVal n, v => v = some (valueAt e buf p n)
  | .skipRem _, v | .refill32, v | .refill64, v => v = none
  | .fill32, v => ∃ i, p ≤ 8 * i ∧ 8 * i ≤ p + 64 ∧ v = some (valueAt e buf (8 * i) 32)
  | .fill64, v => ∃ i, p ≤ 8 * i ∧ 8 * i ≤ p + 64 ∧ v = some (valueAt e buf (8 * i) 64)
  | .canRefill, v => ∃ i, p ≤ 8 * i ∧ 8 * i ≤ p + 64 ∧ v = some (decide (i + 8 ≤ buf.length)).toNat
  | .left, v => ∃ i, p ≤ 8 * i ∧ 8 * i ≤ p + 64 ∧ v = some (8 * i - p)

/-- All results of a history from position `p`, and its final position. -/
def Reads (e : Endian) (buf : List U8) (q : Nat) : Nat → List LowOp → List (Option Nat) → Prop
  | p, [], vs => vs = [] ∧ p = q
  | p, op :: ops, vs => ∃ v ws, vs = v :: ws ∧ Right e buf p op v ∧ Reads e buf q (lowNext p op) ops ws

namespace Cur

/-- What a call asks for so that its result is defined at all. -/
def lowOk (len : Nat) (c : Cur) : LowOp → Prop
  | .call op => widthOk op
  | .peekVal n | .getVal n | .skipRem n => n ≤ 64
  | .refill32 => c.left ≤ 32 ∨ len < c.idx + 8
  | .fill32 | .fill64 => c.idx + 8 ≤ len
  | .refill64 | .canRefill | .left => True

/-- The cursor after a call. A 64-bit refill forgets what was loaded and not read. -/
def lowNext (len : Nat) (c : Cur) : LowOp → Cur
  | .call op => c.next len op
  | .getVal n | .skipRem n => c.drop n
  | .refill32 => c.load len 4
  | .refill64 => if c.idx + 8 ≤ len then ⟨c.idx + 8, c.idx + 8, 8 * c.idx⟩ else c
  | .peekVal _ | .fill32 | .fill64 | .canRefill | .left => c

/-- The result of a call. -/
def lowValue (e : Endian) (buf : List U8) (c : Cur) : LowOp → Option Nat
  | .call op => c.value e buf op
  | .peekVal n | .getVal n => some (valueAt e (buf.take c.lim) c.src n)
  | .skipRem _ | .refill32 | .refill64 => none
  | .fill32 => some (valueAt e buf (8 * c.idx) 32)
  | .fill64 => some (valueAt e buf (8 * c.idx) 64)
  | .canRefill => some (decide (c.idx + 8 ≤ buf.length)).toNat
  | .left => some c.left

def lowLegal (len : Nat) : Cur → List LowOp → Prop
  | _, [] => True
  | c, op :: ops => c.lowOk len op ∧ lowLegal len (c.lowNext len op) ops

def lowRun (e : Endian) (buf : List U8) : Cur → List LowOp → List (Option Nat) × Cur
  | c, [] => ([], c)
  | c, op :: ops =>
    let (vs, d) := lowRun e buf (c.lowNext buf.length op) ops
    (c.lowValue e buf op :: vs, d)

end Cur

/-! ### the building blocks on their own -/

theorem fill64_value (e : Endian) (r : Reader) (h : canRefill r = true) :
    ∃ v, fill64 e r = .ok v ∧ v.toNat = valueAt e r.buffer (8 * r.index) 64 := by
  obtain ⟨c, h1, h2⟩ := fill64_spec e r h
  refine ⟨c, h1, ?_⟩
  rw [valueAt_eq]
  apply toNat_of_bits
  intro i
  by_cases hi : i < 64
  · rw [← h2 _ (by cases e <;> simp only [ridx] <;> omega)]
    simp only [hi, decide_true, Bool.true_and]
    cases e
    · rfl
    · simp only [cacheBit, ridx, BitVec.getMsbD_eq_getLsbD]
      simp only [show 64 - 1 - i < 64 by omega, decide_true, Bool.true_and]
      congr 1; omega
  · simp [hi, BitVec.getLsbD_of_ge _ i (Nat.le_of_not_lt hi)]

theorem fill32_value (e : Endian) (r : Reader) (h : canRefill r = true) :
    ∃ v, fill32 e r = .ok v ∧ v.toNat = valueAt e r.buffer (8 * r.index) 32 := by
  obtain ⟨c, h1, h2⟩ := fill32_spec e r h
  refine ⟨_, h1, ?_⟩
  rw [valueAt_eq, BitVec.toNat_setWidth, Nat.mod_eq_of_lt (Nat.lt_trans c.isLt (by decide))]
  apply toNat_of_bits
  intro i
  by_cases hi : i < 32
  · rw [← h2 _ (by cases e <;> simp only [ridx] <;> omega)]
    simp only [hi, decide_true, Bool.true_and]
    cases e
    · rfl
    · simp only [ridx, BitVec.getMsbD_eq_getLsbD]
      simp only [show 32 - 1 - i < 32 by omega, decide_true, Bool.true_and]
      congr 1; omega
  · simp [hi, BitVec.getLsbD_of_ge _ i (Nat.le_of_not_lt hi)]

theorem peekVal_follows {e r c} (h : Follows e r c) {n : Nat} (hn : n ≤ 64) :
    ∃ v, peekVal e r n = .ok v ∧ getVal e r n = .ok (v, skipRem e r n) ∧
      v.toNat = valueAt e (r.buffer.take c.lim) c.src n := by
  obtain ⟨v, h1, h2⟩ := peekVal_spec e r hn
  refine ⟨v, h1, by simp [getVal, h1], ?_⟩
  rw [valueAt_eq]
  apply toNat_of_bits
  intro i
  rw [h2 i]
  have := h.synced.cache (ridx e n i)
  simp only [onto] at this
  rw [this]
  unfold lbit
  rw [bit_take]
  unfold lbit
  by_cases hq : c.src + ridx e n i < c.lim * 8 <;> simp [hq]

/-- **C138, merge_val** Two parts, of which the first has `a` bits and was read first, make one number. -/
theorem c138_merge (e : Endian) (first second a b : Nat) (hf : first < 2 ^ a) (hs : second < 2 ^ b) (h : a + b ≤ 64)
    (ha : a < 64) : ∃ x, mergeVal e (BitVec.ofNat 64 second) (BitVec.ofNat 64 first) a b = .ok x ∧
      x.toNat = match e with
        | .le => first + 2 ^ a * second
        | .be => first * 2 ^ b + second := by
  have h64 : 2 ^ (a + b) ≤ 2 ^ 64 := Nat.pow_le_pow_right (by decide) h
  have pa : 2 ^ a ≤ 2 ^ 64 := Nat.pow_le_pow_right (by decide) (by omega)
  have pb : 2 ^ b ≤ 2 ^ 64 := Nat.pow_le_pow_right (by decide) (by omega)
  rw [Nat.pow_add] at h64
  cases e with
  | le =>
    refine ⟨_, by simp only [mergeVal, shlPanic, if_pos ha, ok_bind, pure_eq_ok]; rfl, ?_⟩
    have hm : second * 2 ^ a < 2 ^ 64 := by
      have : second * 2 ^ a < 2 ^ b * 2 ^ a := Nat.mul_lt_mul_of_pos_right hs (Nat.two_pow_pos a)
      rw [Nat.mul_comm (2 ^ b)] at this
      omega
    simp only [BitVec.toNat_or, BitVec.toNat_shiftLeft, BitVec.toNat_ofNat, Nat.mod_eq_of_lt (show second < 2 ^ 64 by omega),
      Nat.mod_eq_of_lt (show first < 2 ^ 64 by omega)]
    rw [Nat.shiftLeft_eq, Nat.mod_eq_of_lt hm, ← Nat.shiftLeft_eq, ← Nat.shiftLeft_add_eq_or_of_lt hf, Nat.shiftLeft_eq,
      Nat.add_comm, Nat.mul_comm]
  | be =>
    refine ⟨_, rfl, ?_⟩
    have hm : first * 2 ^ b < 2 ^ 64 := by
      have : first * 2 ^ b < 2 ^ a * 2 ^ b := Nat.mul_lt_mul_of_pos_right hf (Nat.two_pow_pos b)
      omega
    rw [checkedShl_small _ (by omega)]
    simp only [BitVec.toNat_or, BitVec.toNat_shiftLeft, BitVec.toNat_ofNat, Nat.mod_eq_of_lt (show second < 2 ^ 64 by omega),
      Nat.mod_eq_of_lt (show first < 2 ^ 64 by omega)]
    rw [Nat.shiftLeft_eq, Nat.mod_eq_of_lt hm, Nat.or_comm, ← Nat.shiftLeft_eq, ← Nat.shiftLeft_add_eq_or_of_lt hs,
      Nat.shiftLeft_eq]

example : mergeVal .le 0x5 0x3c 8 4 = .ok 0x53c ∧ mergeVal .be 0x5 0x3c 8 4 = .ok 0x3c5 := by decide

/-- **C138, build_cache** 32 bits put behind a cache that holds `k`: at the low end of a little-endian cache are the
bits that come first, at the high end of a big-endian one. -/
theorem c138_build (e : Endian) (held more k : Nat) (hh : held < 2 ^ k) (hm : more < 2 ^ 32) (h : k ≤ 32) :
    ∃ x, buildCache e (BitVec.ofNat 64 (match e with | .le => held | .be => held * 2 ^ (64 - k)))
        (BitVec.ofNat 64 more) k = .ok x ∧
      x.toNat = match e with
        | .le => held + 2 ^ k * more
        | .be => (held * 2 ^ 32 + more) * 2 ^ (32 - k) := by
  have pk : 2 ^ k ≤ 2 ^ 32 := Nat.pow_le_pow_right (by decide) h
  have hs : more * 2 ^ k < 2 ^ 64 := by
    have h1 : more * 2 ^ k < 2 ^ 32 * 2 ^ k := Nat.mul_lt_mul_of_pos_right hm (Nat.two_pow_pos k)
    have h2 : 2 ^ 32 * 2 ^ k ≤ 2 ^ 32 * 2 ^ 32 := Nat.mul_le_mul_left _ pk
    omega
  cases e with
  | le =>
    refine ⟨_, by simp only [buildCache, shlPanic, if_pos (show k < 64 by omega), ok_bind, pure_eq_ok]; rfl, ?_⟩
    simp only [BitVec.toNat_or, BitVec.toNat_shiftLeft, BitVec.toNat_ofNat, Nat.mod_eq_of_lt (show more < 2 ^ 64 by omega),
      Nat.mod_eq_of_lt (show held < 2 ^ 64 by omega)]
    rw [Nat.shiftLeft_eq, Nat.mod_eq_of_lt hs, Nat.or_comm, ← Nat.shiftLeft_eq, ← Nat.shiftLeft_add_eq_or_of_lt hh,
      Nat.shiftLeft_eq, Nat.add_comm, Nat.mul_comm]
  | be =>
    refine ⟨_, by simp only [buildCache, usub_ok h, shlPanic, if_pos (show 32 - k < 64 by omega), ok_bind, pure_eq_ok]; rfl,
      ?_⟩
    have hx : held * 2 ^ (64 - k) < 2 ^ 64 := by
      have : held * 2 ^ (64 - k) < 2 ^ k * 2 ^ (64 - k) := Nat.mul_lt_mul_of_pos_right hh (Nat.two_pow_pos _)
      rwa [← Nat.pow_add, show k + (64 - k) = 64 by omega] at this
    have p2 : 2 ^ (32 - k) ≤ 2 ^ 32 := Nat.pow_le_pow_right (by decide) (by omega)
    have hy' : more * 2 ^ (32 - k) < 2 ^ (64 - k) := by
      have : more * 2 ^ (32 - k) < 2 ^ 32 * 2 ^ (32 - k) := Nat.mul_lt_mul_of_pos_right hm (Nat.two_pow_pos _)
      rwa [← Nat.pow_add, show 32 + (32 - k) = 64 - k by omega] at this
    have hy : more * 2 ^ (32 - k) < 2 ^ 64 := Nat.lt_of_lt_of_le hy' (Nat.pow_le_pow_right (by decide) (by omega))
    simp only [BitVec.toNat_or, BitVec.toNat_shiftLeft, BitVec.toNat_ofNat, Nat.mod_eq_of_lt (show more < 2 ^ 64 by omega),
      Nat.mod_eq_of_lt hx]
    rw [Nat.shiftLeft_eq more, Nat.mod_eq_of_lt hy, ← Nat.shiftLeft_eq held, ← Nat.shiftLeft_add_eq_or_of_lt hy',
      Nat.shiftLeft_eq, Nat.add_mul, Nat.mul_assoc, ← Nat.pow_add, show 32 + (32 - k) = 64 - k by omega]

example : buildCache .le 0x5a 0xdeadbeef 8 = .ok 0xdeadbeef5a ∧
    buildCache .be 0x5a00000000000000 0xdeadbeef 8 = .ok 0x5adeadbeef000000 := by decide

/-! ### exact behaviour -/

theorem refill32_follows {e r c} (h : Follows e r c) (hl : c.left ≤ 32 ∨ r.buffer.length < c.idx + 8) :
    ∃ r', refill32 e r = .ok r' ∧ r'.buffer = r.buffer ∧ Follows e r' (c.load r.buffer.length 4) := by
  by_cases hc : c.idx + 8 ≤ r.buffer.length
  · have hr : canRefill r = true := by rw [h.canRefill]; exact decide_eq_true hc
    obtain ⟨r', a1, a2, a3, _, a4, _⟩ := refill32_yes e r hr (by rw [h.left.1]; omega)
    refine ⟨r', a1, a2, ?_⟩
    have hm := h.more hc
    have := (a4 _ (h.step_in hm)).follows
    rw [a3, h.idx] at this
    simp only [Cur.load, hc, if_true, hm]
    exact this
  · refine ⟨r, refill32_no e r (by rw [h.canRefill]; exact decide_eq_false hc), rfl, ?_⟩
    simp only [Cur.load, hc, if_false]
    exact h

theorem refill64_follows {e r c} (h : Follows e r c) :
    ∃ r', refill64 e r = .ok r' ∧ r'.buffer = r.buffer ∧ Follows e r' (c.lowNext r.buffer.length .refill64) := by
  by_cases hc : c.idx + 8 ≤ r.buffer.length
  · have hr : canRefill r = true := by rw [h.canRefill]; exact decide_eq_true hc
    obtain ⟨r', a1, a2, a3, _, a4⟩ := refill64_yes e r hr
    refine ⟨r', a1, a2, ?_⟩
    have := a4.follows
    rw [a3, h.idx, Nat.mul_comm] at this
    simp only [Cur.lowNext, hc, if_true]
    exact this
  · refine ⟨r, refill64_no e r (by rw [h.canRefill]; exact decide_eq_false hc), rfl, ?_⟩
    simp only [Cur.lowNext, hc, if_false]
    exact h

theorem lowStep_follows {e r c} (h : Follows e r c) (op : LowOp) (hw : c.lowOk r.buffer.length op) :
    ∃ r', lowStep e r op = .ok (c.lowValue e r.buffer op, r') ∧ r'.buffer = r.buffer ∧
      Follows e r' (c.lowNext r.buffer.length op) := by
  cases op with
  | call op => exact step_follows h op hw
  | peekVal n =>
    obtain ⟨v, h1, _, h2⟩ := peekVal_follows h hw
    exact ⟨r, by simp only [lowStep, h1, ok_bind, pure_eq_ok, h2, Cur.lowValue], rfl, h⟩
  | getVal n =>
    obtain ⟨v, _, h1, h2⟩ := peekVal_follows h hw
    exact ⟨_, by simp only [lowStep, h1, ok_bind, pure_eq_ok, h2, Cur.lowValue], by simp, skipRem_follows h hw⟩
  | skipRem n => exact ⟨_, rfl, by simp, skipRem_follows h hw⟩
  | refill32 =>
    obtain ⟨r', h1, h2, h3⟩ := refill32_follows h hw
    exact ⟨r', by simp only [lowStep, h1, ok_bind, pure_eq_ok]; rfl, h2, h3⟩
  | refill64 =>
    obtain ⟨r', h1, h2, h3⟩ := refill64_follows h
    exact ⟨r', by simp only [lowStep, h1, ok_bind, pure_eq_ok]; rfl, h2, h3⟩
  | fill32 =>
    obtain ⟨v, h1, h2⟩ := fill32_value e r (by rw [h.canRefill]; exact decide_eq_true hw)
    exact ⟨r, by simp only [lowStep, h1, ok_bind, pure_eq_ok, h2, Cur.lowValue, h.idx], rfl, h⟩
  | fill64 =>
    obtain ⟨v, h1, h2⟩ := fill64_value e r (by rw [h.canRefill]; exact decide_eq_true hw)
    exact ⟨r, by simp only [lowStep, h1, ok_bind, pure_eq_ok, h2, Cur.lowValue, h.idx], rfl, h⟩
  | canRefill => exact ⟨r, by simp only [lowStep, h.canRefill, Cur.lowValue], rfl, h⟩
  | left => exact ⟨r, by simp only [lowStep, h.left.1, Cur.lowValue], rfl, h⟩

theorem lowRun_follows {e r c} (h : Follows e r c) (ops : List LowOp) (hw : c.lowLegal r.buffer.length ops) :
    ∃ r', lowRun e r ops = .ok ((c.lowRun e r.buffer ops).1, r') ∧ r'.buffer = r.buffer ∧
      Follows e r' (c.lowRun e r.buffer ops).2 := by
  induction ops generalizing r c with
  | nil => exact ⟨r, rfl, rfl, h⟩
  | cons op ops ih =>
    obtain ⟨r1, a1, a2, a3⟩ := lowStep_follows h op hw.1
    obtain ⟨r2, b1, b2, b3⟩ := ih a3 (by rw [a2]; exact hw.2)
    rw [a2] at b1 b2 b3
    exact ⟨r2, by simp only [lowRun, a1, ok_bind, b1, pure_eq_ok, Cur.lowRun], b2, b3⟩

/-- **C138, exactly** Any history of calls of any methods, on any buffer, also at its end, with refills over unread bits
and with more bits taken than are there: results and counters are those of the cursor. -/
theorem c138_exact (e : Endian) (buf : List U8) (ops : List LowOp)
    (hw : (Cur.start buf.length).lowLegal buf.length ops) :
    ∃ r0 r, new e buf = .ok r0 ∧ lowRun e r0 ops = .ok (((Cur.start buf.length).lowRun e buf ops).1, r) ∧
      (let d := ((Cur.start buf.length).lowRun e buf ops).2
       consumed r = .ok (8 * d.idx - d.left) ∧
       available r = if d.idx ≤ buf.length then .ok (8 * (buf.length - d.idx) + d.left) else .error .overflow) := by
  obtain ⟨r0, h1, h2, h3⟩ := new_follows e buf
  subst h2
  obtain ⟨r, a1, a2, a3⟩ := lowRun_follows h3 ops hw
  refine ⟨r0, r, h1, a1, a3.consumed, ?_⟩
  have := a3.available
  rw [a2] at this
  exact this

/-- A history at the end of a buffer: a refill over eight unread bits, another that does nothing, and reads that run
out of bits. -/
example : (Cur.start 20).lowLegal 20 [.getVal 36, .refill32, .call (.get64 52), .refill64, .getVal 20, .left, .refill64,
      .peekVal 50, .canRefill, .skipRem 60, .call (.get32 3)] ∧
    ((Cur.start 20).lowRun .be (List.replicate 20 0xff) [.getVal 36, .refill32, .call (.get64 52), .refill64, .getVal 20,
      .left, .refill64, .peekVal 50, .canRefill, .skipRem 60, .call (.get32 3)]).1 =
      [some (2 ^ 36 - 1), none, some (2 ^ 52 - 1), none, some (2 ^ 20 - 1), some 44, none,
        some ((2 ^ 44 - 1) * 2 ^ 6), some 0, none, some 0] := by
  constructor
  · simp [Cur.lowLegal, Cur.lowOk, Cur.lowNext, Cur.start, Cur.load, Cur.left, Cur.drop, widthOk]
  · decide +kernel

/-! ### within the contract -/

theorem lowStep_stream {e r p} (hs : Synced e r p) (op : LowOp) (hw : Asked r p op) :
    ∃ v r', lowStep e r op = .ok (v, r') ∧ r'.buffer = r.buffer ∧ Right e r.buffer p op v ∧
      Synced e r' (lowNext p op) := by
  have hp := hs.pos
  have hl := hs.left_le
  have hf := hs.follows
  have cur : ∀ n, n ≤ r.left → valueAt e (r.buffer.take r.index) p n = valueAt e r.buffer p n :=
    fun n hn => valueAt_take e r.buffer r.index p n (by omega)
  have mv : ∀ n, n ≤ r.left → Synced e (skipRem e r n) (p + n) := by
    intro n hn
    have := hs.skipRem (n := n) (by omega)
    rwa [Nat.min_eq_left hn] at this
  cases op with
  | call op =>
    obtain ⟨r', h1, h2, h3⟩ := step_within hs op hw.1 hw.2
    exact ⟨_, r', h1, h2, rfl, h3⟩
  | peekVal n =>
    obtain ⟨v, h1, _, h2⟩ := peekVal_follows hf (n := n) (by have : n ≤ r.left := hw; omega)
    exact ⟨_, r, by simp only [lowStep, h1, ok_bind, pure_eq_ok]; rfl, rfl, by rw [Right, h2]; exact congrArg _ (cur n hw),
      hs⟩
  | getVal n =>
    obtain ⟨v, _, h1, h2⟩ := peekVal_follows hf (n := n) (by have : n ≤ r.left := hw; omega)
    exact ⟨_, _, by simp only [lowStep, h1, ok_bind, pure_eq_ok]; rfl, by simp,
      by rw [Right, h2]; exact congrArg _ (cur n hw), mv n hw⟩
  | skipRem n => exact ⟨_, _, rfl, by simp, rfl, mv n hw⟩
  | refill32 =>
    by_cases hr : canRefill r = true
    · obtain ⟨r', a1, a2, _, _, a4, _⟩ := refill32_yes e r hr hw
      exact ⟨_, r', by simp only [lowStep, a1, ok_bind, pure_eq_ok], a2, rfl, a4 p hs⟩
    · exact ⟨_, r, by simp only [lowStep, refill32_no e r (by simpa using hr), ok_bind, pure_eq_ok], rfl, rfl, hs⟩
  | refill64 =>
    by_cases hr : canRefill r = true
    · obtain ⟨r', a1, a2, _, _, a4⟩ := refill64_yes e r hr
      refine ⟨_, r', by simp only [lowStep, a1, ok_bind, pure_eq_ok], a2, rfl, ?_⟩
      have h0 : r.left = 0 := hw
      have : r.index * 8 = p := by omega
      rw [this] at a4
      exact a4
    · exact ⟨_, r, by simp only [lowStep, refill64_no e r (by simpa using hr), ok_bind, pure_eq_ok], rfl, rfl, hs⟩
  | fill32 =>
    obtain ⟨v, h1, h2⟩ := fill32_value e r hw
    exact ⟨_, r, by simp only [lowStep, h1, ok_bind, pure_eq_ok]; rfl, rfl,
      ⟨r.index, by omega, by omega, by rw [h2]⟩, hs⟩
  | fill64 =>
    obtain ⟨v, h1, h2⟩ := fill64_value e r hw
    exact ⟨_, r, by simp only [lowStep, h1, ok_bind, pure_eq_ok]; rfl, rfl,
      ⟨r.index, by omega, by omega, by rw [h2]⟩, hs⟩
  | canRefill => exact ⟨_, r, rfl, rfl, ⟨r.index, by omega, by omega, rfl⟩, hs⟩
  | left => exact ⟨_, r, rfl, rfl, ⟨r.index, by omega, by omega, by congr 1; omega⟩, hs⟩

theorem lowRun_stream {e r p} (hs : Synced e r p) (ops : List LowOp) (hw : Keeps e r p ops) :
    ∃ vs r' q, lowRun e r ops = .ok (vs, r') ∧ r'.buffer = r.buffer ∧ Reads e r.buffer q p ops vs ∧ Synced e r' q := by
  induction ops generalizing r p with
  | nil => exact ⟨[], r, p, rfl, rfl, ⟨rfl, rfl⟩, hs⟩
  | cons op ops ih =>
    obtain ⟨v, r1, a1, a2, a3, a4⟩ := lowStep_stream hs op hw.1
    have hk := hw.2
    rw [a1] at hk
    obtain ⟨vs, r2, q, b1, b2, b3, b4⟩ := ih a4 hk
    rw [a2] at b2 b3
    exact ⟨v :: vs, r2, q, by simp only [lowRun, a1, ok_bind, b1, pure_eq_ok], b2, ⟨v, vs, rfl, a3, b3⟩, b4⟩

/-- **C138** Histories that mix the building blocks with reads and keep the contract of the building blocks read the
stream: every result is the one at the position reached so far, `consumed` is that position, and nothing panics. -/
theorem c138_stream (e : Endian) (buf : List U8) :
    ∃ r0, new e buf = .ok r0 ∧ ∀ ops, Keeps e r0 0 ops →
      ∃ vs r q, lowRun e r0 ops = .ok (vs, r) ∧ Reads e buf q 0 ops vs ∧ consumed r = .ok q := by
  obtain ⟨r0, h1, h2, _, h3⟩ := new_spec e buf
  subst h2
  refine ⟨r0, h1, ?_⟩
  intro ops hw
  obtain ⟨vs, r, q, a1, _, a3, a4⟩ := lowRun_stream h3 ops hw
  exact ⟨vs, r, q, a1, a3, a4.consumed⟩

/-- A decoder that refills by hand: it keeps the contract. -/
def handOps : List LowOp :=
  [.left, .getVal 40, .refill32, .peekVal 56, .getVal 30, .call (.get32 7), .skipRem 19, .refill32, .fill32, .call .align,
   .getVal 32, .refill64, .fill64, .canRefill, .getVal 64]

example : ∃ r0, new .le (sample ++ sample) = .ok r0 ∧ Keeps .le r0 0 handOps :=
  ⟨_, rfl, by decide +kernel⟩

/-- The contract is needed: a 32-bit refill beside 40 unread bits loses eight bits of the little-endian reader, and
panics in the big-endian one; a 64-bit refill forgets what was not read. -/
theorem c138_needed : ∃ r0 vs r, new .le c12buf = .ok r0 ∧
    lowRun .le r0 [.getVal 24, .refill32, .left, .getVal 64, .getVal 8] = .ok (vs, r) ∧
    vs = [some (2 ^ 24 - 1), none, some 72, some (2 ^ 64 - 1), some 0] ∧ consumed r = .ok 96 ∧
    valueAt .le c12buf 88 8 = 255 ∧
    (∃ r1, new .be c12buf = .ok r1 ∧ lowRun .be r1 [.getVal 24, .refill32] = .error .overflow) ∧
    ∃ ws r2, lowRun .le r0 [.getVal 24, .refill64] = .ok (ws, r2) ∧ consumed r2 = .ok 64 := by
  refine ⟨_, _, _, rfl, rfl, by decide, by decide, by decide, ⟨_, rfl, by decide⟩, _, _, rfl, by decide⟩

/-! ### panics of every history -/

/-- The panic a call ends in. The little-endian reader can hold more than 64 bits (up to 95) after `refill32`. -/
def lowPanic (e : Endian) (r : Reader) : LowOp → Option Panic
  | .call op =>
    match e, op with
    | .le, .get32 n | .le, .peek32 n =>
      if n ≠ 0 ∧ r.left ≤ n ∧ r.index + 8 ≤ r.buffer.length ∧ 64 ≤ r.left then some .shift else none
    | .le, .get64 n | .le, .peek64 n => if r.left < n ∧ 64 ≤ r.left then some .shift else none
    | .le, _ => none
    | .be, op => panicOf .be r op
  | .peekVal n | .getVal n =>
    match e with
    | .le => none
    | .be => if 64 < n % 2 ^ 32 then some .overflow else none
  | .refill32 =>
    match e with
    | .le => if r.index + 8 ≤ r.buffer.length ∧ 64 ≤ r.left then some .shift else none
    | .be => if r.index + 8 ≤ r.buffer.length ∧ 32 < r.left then some .overflow else none
  | .fill32 =>
    if r.buffer.length < r.index then some .slice else if r.buffer.length < r.index + 4 then some .assert else none
  | .fill64 =>
    if r.buffer.length < r.index then some .slice else if r.buffer.length < r.index + 8 then some .assert else none
  | .skipRem _ | .refill64 | .canRefill | .left => none

/-- The number of bits a reader holds: no bound is needed for the little-endian one. -/
def Holds (e : Endian) (r : Reader) : Prop := e = .be → r.left ≤ 64

theorem holds_le (r : Reader) : Holds .le r := fun h => (nomatch h)

/-- How a call ends that `p` says panics, or not. -/
def Ends (e : Endian) (p : Option Panic) (x : Rust (α × Reader)) : Prop :=
  match p with
  | some p => x = .error p
  | none => ∃ v r', x = .ok (v, r') ∧ Holds e r'

theorem refill64_ok (e : Endian) (r : Reader) : ∃ r', refill64 e r = .ok r' := by
  by_cases h : canRefill r = true
  · obtain ⟨r', h1, _⟩ := refill64_yes e r h
    exact ⟨r', h1⟩
  · exact ⟨r, refill64_no e r (by simpa using h)⟩

theorem refill32_le (r : Reader) :
    if r.index + 8 ≤ r.buffer.length ∧ 64 ≤ r.left then refill32 .le r = .error .shift
    else ∃ r', refill32 .le r = .ok r' := by
  by_cases h : r.index + 8 ≤ r.buffer.length
  · by_cases h2 : 64 ≤ r.left
    · rw [if_pos ⟨h, h2⟩]
      have hc : canRefill r = true := decide_eq_true h
      obtain ⟨w, hw, _⟩ := fill32_spec .le r hc
      simp only [refill32, hc, Bool.not_true, Bool.false_eq_true, if_false, hw, ok_bind, buildCache, shlPanic,
        if_neg (Nat.not_lt.mpr h2), error_bind]
    · rw [if_neg (by omega)]
      obtain ⟨r', h1, _⟩ := refill32_any .le r h (by omega)
      exact ⟨r', h1⟩
  · rw [if_neg (by omega)]
    exact ⟨r, refill32_no .le r (decide_eq_false h)⟩

theorem get32_le (r : Reader) (n : Nat) : Ends .le (lowPanic .le r (.call (.get32 n))) (get_bits_32 .le r n) := by
  by_cases h0 : n = 0
  · subst h0
    simp only [lowPanic, ne_eq, not_true_eq_false, false_and, if_false]
    exact ⟨_, r, by simp [get_bits_32]; rfl, holds_le _⟩
  by_cases h1 : r.left ≤ n
  · have := refill32_le r
    by_cases h2 : r.index + 8 ≤ r.buffer.length ∧ 64 ≤ r.left
    · rw [if_pos h2] at this
      simp only [lowPanic, ne_eq, h0, not_false_eq_true, h1, h2, and_self, if_true, Ends]
      simp only [get_bits_32, if_neg h0, if_pos h1, this, error_bind]
    · rw [if_neg h2] at this
      obtain ⟨r', h3⟩ := this
      rw [lowPanic, if_neg (fun h => h2 h.2.2)]
      exact ⟨_, _, by simp only [get_bits_32, if_neg h0, if_pos h1, h3, ok_bind, getVal, peekVal, pure_eq_ok]; rfl,
        holds_le _⟩
  · rw [lowPanic, if_neg (fun h => h1 h.2.1)]
    exact ⟨_, _, by simp only [get_bits_32, if_neg h0, if_neg h1, ok_bind, getVal, peekVal, pure_eq_ok]; rfl,
      holds_le _⟩

theorem get64_le (r : Reader) (n : Nat) : Ends .le (lowPanic .le r (.call (.get64 n))) (get_bits_64 .le r n) := by
  by_cases h0 : n = 0
  · subst h0
    simp only [lowPanic, Nat.not_lt_zero, false_and, if_false]
    exact ⟨_, r, by simp [get_bits_64]; rfl, holds_le _⟩
  by_cases h1 : r.left < n
  · obtain ⟨r', h3⟩ := refill64_ok .le (skipRem .le r r.left)
    obtain ⟨v, hv⟩ := getVal_le r' (n - r.left)
    obtain ⟨w, hw⟩ := getVal_le r r.left
    by_cases h2 : 64 ≤ r.left
    · simp only [lowPanic, h1, h2, and_self, if_true, Ends]
      simp only [get_bits_64, if_neg h0, if_pos h1, hw, ok_bind, h3, hv, mergeVal, shlPanic, if_neg (Nat.not_lt.mpr h2),
        error_bind]
    · rw [lowPanic, if_neg (fun h => h2 h.2)]
      exact ⟨_, _, by simp only [get_bits_64, if_neg h0, if_pos h1, hw, ok_bind, h3, hv, mergeVal, shlPanic,
        if_pos (Nat.lt_of_not_le h2), pure_eq_ok]; rfl, holds_le _⟩
  · obtain ⟨v, hv⟩ := getVal_le r n
    rw [lowPanic, if_neg (fun h => h1 h.1)]
    exact ⟨_, _, by simp only [get_bits_64, if_neg h0, if_neg h1, ok_bind, hv, mergeVal, shlPanic,
      if_pos (show 0 < 64 by omega), pure_eq_ok]; rfl, holds_le _⟩

theorem getBit_le (r : Reader) : ∃ v r', get_bit .le r = .ok (v, r') := by
  by_cases h : r.left = 0
  · obtain ⟨r', h3⟩ := refill64_ok .le r
    obtain ⟨v, hv⟩ := getVal_le r' 1
    exact ⟨_, _, by simp only [get_bit, if_pos h, h3, ok_bind, hv, pure_eq_ok]; rfl⟩
  · obtain ⟨v, hv⟩ := getVal_le r 1
    exact ⟨_, _, by simp only [get_bit, if_neg h, ok_bind, hv, pure_eq_ok]; rfl⟩

theorem skip_le (r : Reader) (n : Nat) : ∃ r', skip_bits .le r n = .ok r' := by
  by_cases h : r.left < n
  · by_cases h2 : n - r.left > 64
    · obtain ⟨r', h3⟩ := refill64_ok .le (skipRem .le { r with index := r.index + (n - r.left) / 8 }
        (n - r.left - (n - r.left) / 8 * 8))
      exact ⟨_, by simp only [skip_bits, h, h2, if_true, h3, ok_bind, pure_eq_ok]; rfl⟩
    · obtain ⟨r', h3⟩ := refill64_ok .le (skipRem .le r (n - r.left))
      exact ⟨_, by simp only [skip_bits, h, h2, if_true, if_false, h3, ok_bind, pure_eq_ok]; rfl⟩
  · exact ⟨_, by simp only [skip_bits, h, if_false]; rfl⟩

theorem step_le (r : Reader) (op : Op) : Ends .le (lowPanic .le r (.call op)) (step .le r op) := by
  cases op with
  | getBit =>
    obtain ⟨v, r', h⟩ := getBit_le r
    exact ⟨_, r', by simp only [step, h, ok_bind, pure_eq_ok]; rfl, holds_le _⟩
  | peekBit =>
    obtain ⟨v, r', h⟩ := getBit_le r
    exact ⟨_, r, by simp only [step, peek_bit, h, ok_bind, pure_eq_ok]; rfl, holds_le _⟩
  | skip n =>
    obtain ⟨r', h⟩ := skip_le r n
    exact ⟨_, r', by simp only [step, h, ok_bind, pure_eq_ok]; rfl, holds_le _⟩
  | align =>
    obtain ⟨r', h⟩ := skip_le r (r.left &&& 7)
    exact ⟨_, r', by simp only [step, align_bits, h, ok_bind, pure_eq_ok]; rfl, holds_le _⟩
  | get32 n =>
    have h := get32_le r n
    unfold Ends at h ⊢
    split at h
    · simp only [step, h, error_bind]
    · obtain ⟨v, r', h, _⟩ := h
      exact ⟨_, r', by simp only [step, h, ok_bind, pure_eq_ok]; rfl, holds_le _⟩
  | get64 n =>
    have h := get64_le r n
    unfold Ends at h ⊢
    split at h
    · simp only [step, h, error_bind]
    · obtain ⟨v, r', h, _⟩ := h
      exact ⟨_, r', by simp only [step, h, ok_bind, pure_eq_ok]; rfl, holds_le _⟩
  | peek32 n =>
    have h := get32_le r n
    have he : lowPanic .le r (.call (.peek32 n)) = lowPanic .le r (.call (.get32 n)) := rfl
    rw [he]
    unfold Ends at h ⊢
    split at h
    · simp only [step, peek_bits_32, h, error_bind]
    · obtain ⟨v, r', h, _⟩ := h
      exact ⟨_, r, by simp only [step, peek_bits_32, h, ok_bind, pure_eq_ok]; rfl, holds_le _⟩
  | peek64 n =>
    have h := get64_le r n
    have he : lowPanic .le r (.call (.peek64 n)) = lowPanic .le r (.call (.get64 n)) := rfl
    rw [he]
    unfold Ends at h ⊢
    split at h
    · simp only [step, peek_bits_64, h, error_bind]
    · obtain ⟨v, r', h, _⟩ := h
      exact ⟨_, r, by simp only [step, peek_bits_64, h, ok_bind, pure_eq_ok]; rfl, holds_le _⟩

theorem fill_any (e : Endian) (r : Reader) :
    (if r.buffer.length < r.index then fill32 e r = .error .slice ∧ fill64 e r = .error .slice
     else (if r.buffer.length < r.index + 4 then fill32 e r = .error .assert else ∃ v, fill32 e r = .ok v) ∧
      if r.buffer.length < r.index + 8 then fill64 e r = .error .assert else ∃ v, fill64 e r = .ok v) := by
  by_cases h : r.buffer.length < r.index
  · rw [if_pos h]
    constructor <;> simp only [fill32, fill64, sliceFrom, if_neg (Nat.not_le.mpr h), error_bind]
  · rw [if_neg h]
    have hs := sliceFrom_ok (l := r.buffer) (i := r.index) (by omega)
    have hl : (r.buffer.drop r.index).length = r.buffer.length - r.index := by simp
    constructor
    · split
      · next h4 =>
        cases e <;> simp only [fill32, hs, ok_bind, get_u32l_eq, get_u32b_eq, getGen,
          if_neg (show ¬ 4 ≤ (r.buffer.drop r.index).length by omega), error_bind]
      · next h4 =>
        cases e <;> exact ⟨_, by simp only [fill32, hs, ok_bind, get_u32l_eq, get_u32b_eq, getGen,
          if_pos (show 4 ≤ (r.buffer.drop r.index).length by omega), ok_bind, pure_eq_ok]; rfl⟩
    · split
      · next h4 =>
        cases e <;> simp only [fill64, hs, ok_bind, get_u64l_eq, get_u64b_eq, getGen,
          if_neg (show ¬ 8 ≤ (r.buffer.drop r.index).length by omega)]
      · next h4 =>
        cases e <;> exact ⟨_, by simp only [fill64, hs, ok_bind, get_u64l_eq, get_u64b_eq, getGen,
          if_pos (show 8 ≤ (r.buffer.drop r.index).length by omega)]; rfl⟩

theorem lowStep_any (e : Endian) (r : Reader) (hl : Holds e r) (op : LowOp) :
    Ends e (lowPanic e r op) (lowStep e r op) := by
  cases op with
  | call op =>
    cases e with
    | le => exact step_le r op
    | be =>
      have h := step_any .be r (hl rfl) op
      show Ends .be (panicOf .be r op) (step .be r op)
      unfold Ends
      split at h
      · next heq => rw [heq]; exact h
      · next heq =>
        rw [heq]
        obtain ⟨v, r', h1, _, h2⟩ := h
        exact ⟨v, r', h1, fun _ => h2⟩
  | peekVal n =>
    cases e with
    | le => exact ⟨_, r, rfl, hl⟩
    | be =>
      by_cases h : 64 < n % 2 ^ 32
      · simp only [lowPanic, h, if_true, Ends]
        simp only [lowStep, peekVal, usub, if_neg (Nat.not_le.mpr h), error_bind]
      · simp only [lowPanic, h, if_false]
        exact ⟨_, r, by simp only [lowStep, peekVal, usub_ok (Nat.le_of_not_lt h), ok_bind, pure_eq_ok]; rfl, hl⟩
  | getVal n =>
    cases e with
    | le => exact ⟨_, _, rfl, holds_le _⟩
    | be =>
      by_cases h : 64 < n % 2 ^ 32
      · simp only [lowPanic, h, if_true, Ends]
        simp only [lowStep, getVal_be_panic h, error_bind]
      · simp only [lowPanic, h, if_false]
        obtain ⟨v, hv⟩ := getVal_be (r := r) (n := n) (by omega)
        exact ⟨_, _, by simp only [lowStep, hv, ok_bind, pure_eq_ok]; rfl,
          fun _ => by rw [skipRem_left]; have := hl rfl; omega⟩
  | skipRem n => exact ⟨_, _, rfl, fun h => by rw [skipRem_left]; have := hl h; omega⟩
  | refill32 =>
    cases e with
    | le =>
      have := refill32_le r
      by_cases h : r.index + 8 ≤ r.buffer.length ∧ 64 ≤ r.left
      · rw [if_pos h] at this
        simp only [lowPanic, h, and_self, if_true, Ends]
        simp only [lowStep, this, error_bind]
      · rw [if_neg h] at this
        obtain ⟨r', h1⟩ := this
        rw [lowPanic, if_neg h]
        exact ⟨_, r', by simp only [lowStep, h1, ok_bind, pure_eq_ok]; rfl, holds_le _⟩
    | be =>
      by_cases h : r.index + 8 ≤ r.buffer.length
      · have hc : canRefill r = true := decide_eq_true h
        by_cases h2 : 32 < r.left
        · obtain ⟨w, hw, _⟩ := fill32_spec .be r hc
          simp only [lowPanic, h, h2, and_self, if_true, Ends]
          simp only [lowStep, refill32, hc, Bool.not_true, Bool.false_eq_true, if_false, hw, ok_bind, buildCache, usub,
            if_neg (Nat.not_le.mpr h2), error_bind]
        · rw [lowPanic, if_neg (fun h => h2 h.2)]
          obtain ⟨r', h1, _, h3⟩ := refill32_any .be r h (by omega)
          exact ⟨_, r', by simp only [lowStep, h1, ok_bind, pure_eq_ok]; rfl, fun _ => by omega⟩
      · rw [lowPanic, if_neg (fun h2 => h h2.1)]
        exact ⟨_, r, by simp only [lowStep, refill32_no .be r (decide_eq_false h), ok_bind, pure_eq_ok]; rfl, hl⟩
  | refill64 =>
    cases e with
    | le =>
      obtain ⟨r', h1⟩ := refill64_ok .le r
      exact ⟨_, r', by simp only [lowStep, h1, ok_bind, pure_eq_ok]; rfl, holds_le _⟩
    | be =>
      obtain ⟨r', h1, _, h2⟩ := refill64_any .be r (hl rfl)
      exact ⟨_, r', by simp only [lowStep, h1, ok_bind, pure_eq_ok]; rfl, fun _ => h2⟩
  | fill32 =>
    have := fill_any e r
    by_cases h : r.buffer.length < r.index
    · rw [if_pos h] at this
      simp only [lowPanic, h, if_true, Ends, lowStep, this.1, error_bind]
    · rw [if_neg h] at this
      by_cases h4 : r.buffer.length < r.index + 4
      · have h5 := this.1
        rw [if_pos h4] at h5
        simp only [lowPanic, h, h4, if_false, if_true, Ends, lowStep, h5, error_bind]
      · have h5 := this.1
        rw [if_neg h4] at h5
        obtain ⟨v, h5⟩ := h5
        simp only [lowPanic, h, h4, if_false]
        exact ⟨_, r, by simp only [lowStep, h5, ok_bind, pure_eq_ok]; rfl, hl⟩
  | fill64 =>
    have := fill_any e r
    by_cases h : r.buffer.length < r.index
    · rw [if_pos h] at this
      simp only [lowPanic, h, if_true, Ends, lowStep, this.2, error_bind]
    · rw [if_neg h] at this
      by_cases h4 : r.buffer.length < r.index + 8
      · have h5 := this.2
        rw [if_pos h4] at h5
        simp only [lowPanic, h, h4, if_false, if_true, Ends, lowStep, h5, error_bind]
      · have h5 := this.2
        rw [if_neg h4] at h5
        obtain ⟨v, h5⟩ := h5
        simp only [lowPanic, h, h4, if_false]
        exact ⟨_, r, by simp only [lowStep, h5, ok_bind, pure_eq_ok]; rfl, hl⟩
  | canRefill => exact ⟨_, r, rfl, hl⟩
  | left => exact ⟨_, r, rfl, hl⟩

theorem lowRun_any (e : Endian) (ops : List LowOp) (p : Panic) : ∀ r : Reader, Holds e r →
    (lowRun e r ops = .error p ↔ ∃ pre op post vs r', ops = pre ++ op :: post ∧ lowRun e r pre = .ok (vs, r') ∧
      lowPanic e r' op = some p) := by
  induction ops with
  | nil =>
    intro r _
    constructor
    · intro h; cases h
    · rintro ⟨pre, op, post, _, _, h, _⟩; simp at h
  | cons op ops ih =>
    intro r hl
    have hs := lowStep_any e r hl op
    cases hp : lowPanic e r op with
    | some q =>
      rw [hp] at hs
      have hs : lowStep e r op = .error q := hs
      have hrun : lowRun e r (op :: ops) = .error q := by simp only [lowRun, hs, error_bind]
      rw [hrun]
      constructor
      · intro h
        cases h
        exact ⟨[], op, ops, [], r, rfl, rfl, hp⟩
      · rintro ⟨pre, op', post, vs, r', h1, h2, h3⟩
        cases pre with
        | nil =>
          simp only [List.nil_append, List.cons.injEq] at h1
          simp only [lowRun, Except.ok.injEq, Prod.mk.injEq] at h2
          rw [← h1.1, ← h2.2, hp] at h3
          rw [Option.some.inj h3]
        | cons o pre =>
          simp only [List.cons_append, List.cons.injEq] at h1
          rw [← h1.1] at h2
          simp only [lowRun, hs, error_bind] at h2
          cases h2
    | none =>
      rw [hp] at hs
      obtain ⟨v, r1, a1, a3⟩ := hs
      have hi := ih r1 a3
      have hrun : lowRun e r (op :: ops) = .error p ↔ lowRun e r1 ops = .error p := by
        simp only [lowRun, a1, ok_bind]
        cases lowRun e r1 ops with
        | error x => simp [error_bind]
        | ok x => obtain ⟨vs, r2⟩ := x; simp only [ok_bind, pure_eq_ok]; constructor <;> (intro h; cases h)
      rw [hrun, hi]
      constructor
      · rintro ⟨pre, op', post, vs, r', h1, h2, h3⟩
        exact ⟨op :: pre, op', post, v :: vs, r', by rw [h1]; rfl, by simp only [lowRun, a1, ok_bind, h2, pure_eq_ok], h3⟩
      · rintro ⟨pre, op', post, vs, r', h1, h2, h3⟩
        cases pre with
        | nil =>
          simp only [List.nil_append, List.cons.injEq] at h1
          simp only [lowRun, Except.ok.injEq, Prod.mk.injEq] at h2
          rw [← h1.1, ← h2.2, hp] at h3
          cases h3
        | cons o pre =>
          simp only [List.cons_append, List.cons.injEq] at h1
          rw [← h1.1] at h2
          simp only [lowRun, a1, ok_bind] at h2
          cases hr : lowRun e r1 pre with
          | error x => rw [hr] at h2; cases h2
          | ok x =>
            obtain ⟨ws, r2⟩ := x
            rw [hr] at h2
            simp only [ok_bind, pure_eq_ok, Except.ok.injEq, Prod.mk.injEq] at h2
            exact ⟨pre, op', post, ws, r2, h1.2, hr, by rw [h2.2]; exact h3⟩

/-- **C138, the panics exactly** For every buffer and every history of calls of any methods with any arguments: it
panics just when it reaches a call that `lowPanic` names, and with that panic. -/
theorem c138_panics (e : Endian) (buf : List U8) (ops : List LowOp) (p : Panic) :
    ∃ r0, new e buf = .ok r0 ∧ (lowRun e r0 ops = .error p ↔
      ∃ pre op post vs r, ops = pre ++ op :: post ∧ lowRun e r0 pre = .ok (vs, r) ∧ lowPanic e r op = some p) := by
  obtain ⟨r0, h1, _, _, h3⟩ := new_spec e buf
  exact ⟨r0, h1, lowRun_any e ops p r0 (fun _ => h3.left_le)⟩

/-- All kinds of panics, and calls next to them that do not panic. -/
example : ∃ r0 r1, new .le sample = .ok r0 ∧ new .be sample = .ok r1 ∧
    lowRun .le r0 [.getVal 1, .refill32, .call (.get32 96)] = .error .shift ∧
    (∃ vs r, lowRun .le r0 [.getVal 1, .refill32, .call (.get32 94), .refill64] = .ok (vs, r)) ∧
    lowRun .le r0 [.refill64, .call (.skip 192), .fill32] = .error .slice ∧
    lowRun .le r0 [.refill64, .refill64, .fill32] = .error .assert ∧
    lowRun .be r1 [.getVal 31, .refill32] = .error .overflow ∧
    (∃ vs r, lowRun .be r1 [.getVal 32, .refill32, .fill32, .peekVal 64] = .ok (vs, r)) ∧
    lowRun .be r1 [.peekVal 65] = .error .overflow := by
  refine ⟨_, _, rfl, rfl, by decide +kernel, ⟨_, _, rfl⟩, by decide +kernel, by decide +kernel, by decide +kernel,
    ⟨_, _, rfl⟩, by decide +kernel⟩

end Verif.BitRead
