import Verif.BitRead.Overflow
import Verif.BitRead.AnyWidth

/-!
# C112, C113, C114: the bit readers in builds without overflow checks

In the release profile of cargo sums, differences and products wrap and shifts use the number of places modulo the
width. Here the functions of `bitread.rs` for any arithmetic; the checked one gives those of `Verif.BitRead.Overflow`.
-/

namespace Verif.BitRead
open Verif Verif.Bytes Verif.Data

/-- The operators `bitread.rs` uses without saying how they overflow. -/
structure Ops where
  /-- `usize + usize` -/
  add : Nat → Nat → Rust Nat
  /-- `usize - usize` -/
  sub : Nat → Nat → Rust Nat
  /-- `usize * usize` -/
  mul : Nat → Nat → Rust Nat
  /-- `u32 - u32` -/
  sub32 : Nat → Nat → Rust Nat
  /-- `u64 << usize` -/
  shl : BitVec 64 → Nat → Rust (BitVec 64)

/-- With overflow checks. -/
def checkedOps : Ops := ⟨uadd, usub, umul, usub, shlPanic⟩

/-- Without. -/
def wrappingOps : Ops where
  add a b := .ok ((a + b) % 2 ^ 64)
  sub a b := .ok (if b ≤ a then a - b else a + 2 ^ 64 - b)
  mul a b := .ok (a * b % 2 ^ 64)
  sub32 a b := .ok (if b ≤ a then a - b else a + 2 ^ 32 - b)
  shl x n := .ok (x <<< (n % 64))

namespace Ops
variable (o : Ops)

/-- LE: bitread.rs:240-244; BE: bitread.rs:287-289 -/
def peekVal (e : Endian) (r : Reader) (n : Nat) : Rust (BitVec 64) :=
  match e with
  | .le => .ok (r.cache &&& (checkedShl 1 n - 1))
  | .be => do return checkedShr r.cache (← o.sub32 64 (n % 2 ^ 32))

/-- LE: bitread.rs:251-253; BE: bitread.rs:296-298 -/
def mergeVal (e : Endian) (msp lsp : BitVec 64) (msb lsb : Nat) : Rust (BitVec 64) :=
  match e with
  | .le => do return (← o.shl msp msb) ||| lsp
  | .be => .ok (msp ||| checkedShl lsp lsb)

/-- LE: bitread.rs:255-257; BE: bitread.rs:300-302 -/
def buildCache (e : Endian) (cache refill : BitVec 64) (cacheSize : Nat) : Rust (BitVec 64) :=
  match e with
  | .le => do return cache ||| (← o.shl refill cacheSize)
  | .be => do return cache ||| (← o.shl refill (← o.sub 32 cacheSize))

/-- bitread.rs:266-268, 311-313 -/
def canRefill (r : Reader) : Rust Bool := do return decide ((← o.add r.index 8) ≤ r.buffer.length)

/-- bitread.rs:166-176 -/
def refill32 (e : Endian) (r : Reader) : Rust Reader := do
  if !(← o.canRefill r) then return r
  else do
    let val ← fill32 e r
    let cache ← o.buildCache e r.cache val r.left
    let index ← o.add r.index 4
    let left ← o.add r.left 32
    return { r with cache := cache, index := index, left := left }

/-- bitread.rs:178-186 -/
def refill64 (e : Endian) (r : Reader) : Rust Reader := do
  if !(← o.canRefill r) then return r
  else do
    let cache ← fill64 e r
    let index ← o.add r.index 8
    return { r with cache := cache, index := index, left := 64 }

/-- bitread.rs:43-49 -/
def getVal (e : Endian) (r : Reader) (n : Nat) : Rust (BitVec 64 × Reader) := do
  let ret ← o.peekVal e r n
  return (ret, skipRem e r n)

/-- bitread.rs:190-200 -/
def new (e : Endian) (buffer : List U8) : Rust Reader :=
  o.refill64 e { buffer, index := 0, cache := 0, left := 0 }

/-- bitread.rs:202-204 -/
def consumed (r : Reader) : Rust Nat := do o.sub (← o.mul r.index 8) r.left

/-- bitread.rs:207-209 -/
def available (r : Reader) : Rust Nat := do
  o.add (← o.mul (← o.sub r.buffer.length r.index) 8) r.left

/-- bitread.rs:212-226 -/
def skip_bits (e : Endian) (r : Reader) (n : Nat) : Rust Reader :=
  if r.left < n then do
    let n := n - r.left
    let (n, r) ← (if n > 64 then do
        let skip := n / 8
        let n ← o.sub n (← o.mul skip 8)
        let index ← o.add r.index skip
        return (n, { r with index := index })
      else return (n, r))
    let r := skipRem e r n
    let r ← o.refill64 e r
    return skipRem e r n
  else .ok (skipRem e r n)

/-- bitread.rs:66-72 -/
def get_bit (e : Endian) (r : Reader) : Rust (Bool × Reader) := do
  let r ← (if r.left = 0 then o.refill64 e r else .ok r)
  let (v, r) ← o.getVal e r 1
  return (v != 0, r)

/-- bitread.rs:76-92 -/
def get_bits_64 (e : Endian) (r : Reader) (n : Nat) : Rust (BitVec 64 × Reader) :=
  if n = 0 then .ok (0, r)
  else do
    let (n, left, ret, r) ←
      if r.left < n then do
        let left := r.left
        let (ret, r') ← o.getVal e r left
        let r' ← o.refill64 e r'
        .ok (n - left, left, ret, r')
      else .ok (n, 0, 0, r)
    let (v, r) ← o.getVal e r n
    return (← o.mergeVal e v ret left n, r)

/-- bitread.rs:96-106 -/
def get_bits_32 (e : Endian) (r : Reader) (n : Nat) : Rust (BitVec 32 × Reader) :=
  if n = 0 then .ok (0, r)
  else do
    let r ← (if r.left ≤ n then o.refill32 e r else .ok r)
    let (v, r) ← o.getVal e r n
    return (v.setWidth 32, r)

/-- bitread.rs:110-114, 118-122, 126-130, 134-138: the peeks read from a copy; `align_bits` skips `left & 7` -/
def step (e : Endian) (r : Reader) : Op → Rust (Option Nat × Reader)
  | .getBit => do let (b, r) ← o.get_bit e r; return (some b.toNat, r)
  | .get32 n => do let (v, r) ← o.get_bits_32 e r n; return (some v.toNat, r)
  | .get64 n => do let (v, r) ← o.get_bits_64 e r n; return (some v.toNat, r)
  | .skip n => do let r ← o.skip_bits e r n; return (none, r)
  | .align => do let r ← o.skip_bits e r (r.left &&& 7); return (none, r)
  | .peekBit => do let (b, _) ← o.get_bit e r; return (some b.toNat, r)
  | .peek32 n => do let (v, _) ← o.get_bits_32 e r n; return (some v.toNat, r)
  | .peek64 n => do let (v, _) ← o.get_bits_64 e r n; return (some v.toNat, r)

/-- A history of calls. -/
def run (e : Endian) (r : Reader) : List Op → Rust (List (Option Nat) × Reader)
  | [] => .ok ([], r)
  | op :: ops => do
    let (v, r) ← o.step e r op
    let (vs, r) ← run e r ops
    return (v :: vs, r)

end Ops

/-! ### The checked operators give the model -/

theorem checkedOps_step : checkedOps.step = stepC := by
  funext e r op
  cases e <;> cases op <;> rfl

theorem checkedOps_model :
    checkedOps.new = newC ∧ checkedOps.run = runC ∧ checkedOps.consumed = consumedC ∧
      checkedOps.available = availableC := by
  refine ⟨by funext e b; cases e <;> rfl, ?_, rfl, rfl⟩
  funext e r ops
  induction ops generalizing r with
  | nil => rfl
  | cons op ops ih => simp only [Ops.run, runC, checkedOps_step, ih]

/-! ### Agreement -/

/-- Whatever the first returns, the second returns. -/
def Upto (a b : Rust α) : Prop := ∀ x, a = .ok x → b = .ok x

theorem Upto.refl (a : Rust α) : Upto a a := fun _ h => h

theorem Upto.bind {a b : Rust α} {f g : α → Rust β} (h : Upto a b) (k : ∀ x, Upto (f x) (g x)) :
    Upto (a >>= f) (b >>= g) := by
  intro y hy
  cases a with
  | error _ => exact nomatch hy
  | ok x =>
    rw [h x rfl]
    exact k x y hy

theorem Upto.ite {c : Prop} [Decidable c] {a a' b b' : Rust α} (h1 : Upto a b) (h2 : Upto a' b') :
    Upto (if c then a else a') (if c then b else b') := by
  split
  · exact h1
  · exact h2

/-- One arithmetic refines another. -/
structure Ops.Le (p q : Ops) : Prop where
  add : ∀ a b, Upto (p.add a b) (q.add a b)
  sub : ∀ a b, Upto (p.sub a b) (q.sub a b)
  mul : ∀ a b, Upto (p.mul a b) (q.mul a b)
  sub32 : ∀ a b, Upto (p.sub32 a b) (q.sub32 a b)
  shl : ∀ a b, Upto (p.shl a b) (q.shl a b)

theorem wrapping_le : checkedOps.Le wrappingOps where
  add a b x h := by
    simp only [checkedOps, uadd] at h
    split at h
    · cases h; simp only [wrappingOps, Nat.mod_eq_of_lt (by assumption)]
    · exact nomatch h
  sub a b x h := by
    simp only [checkedOps, usub] at h
    split at h
    · cases h; simp only [wrappingOps, if_pos (by assumption)]
    · exact nomatch h
  mul a b x h := by
    simp only [checkedOps, umul] at h
    split at h
    · cases h; simp only [wrappingOps, Nat.mod_eq_of_lt (by assumption)]
    · exact nomatch h
  sub32 a b x h := by
    simp only [checkedOps, usub] at h
    split at h
    · cases h; simp only [wrappingOps, if_pos (by assumption)]
    · exact nomatch h
  shl a b x h := by
    simp only [checkedOps, shlPanic] at h
    split at h
    · cases h; simp only [wrappingOps, Nat.mod_eq_of_lt (by assumption)]
    · exact nomatch h

section
variable {p q : Ops} (h : p.Le q)
include h

theorem Upto.getVal (e : Endian) (r : Reader) (n : Nat) : Upto (p.getVal e r n) (q.getVal e r n) := by
  refine Upto.bind ?_ (fun _ => Upto.refl _)
  cases e
  · exact Upto.refl _
  · exact Upto.bind (h.sub32 _ _) (fun _ => Upto.refl _)

theorem Upto.canRefill (r : Reader) : Upto (p.canRefill r) (q.canRefill r) :=
  Upto.bind (h.add _ _) (fun _ => Upto.refl _)

theorem Upto.buildCache (e : Endian) (c v : BitVec 64) (n : Nat) :
    Upto (p.buildCache e c v n) (q.buildCache e c v n) := by
  cases e
  · exact Upto.bind (h.shl _ _) (fun _ => Upto.refl _)
  · exact Upto.bind (h.sub _ _) (fun _ => Upto.bind (h.shl _ _) (fun _ => Upto.refl _))

theorem Upto.mergeVal (e : Endian) (m l : BitVec 64) (a b : Nat) :
    Upto (p.mergeVal e m l a b) (q.mergeVal e m l a b) := by
  cases e
  · exact Upto.bind (h.shl _ _) (fun _ => Upto.refl _)
  · exact Upto.refl _

theorem Upto.refill64 (e : Endian) (r : Reader) : Upto (p.refill64 e r) (q.refill64 e r) :=
  Upto.bind (Upto.canRefill h r) fun _ => Upto.ite (Upto.refl _)
    (Upto.bind (Upto.refl _) fun _ => Upto.bind (h.add _ _) fun _ => Upto.refl _)

theorem Upto.refill32 (e : Endian) (r : Reader) : Upto (p.refill32 e r) (q.refill32 e r) :=
  Upto.bind (Upto.canRefill h r) fun _ => Upto.ite (Upto.refl _)
    (Upto.bind (Upto.refl _) fun _ => Upto.bind (Upto.buildCache h _ _ _ _) fun _ => Upto.bind (h.add _ _) fun _ =>
      Upto.bind (h.add _ _) fun _ => Upto.refl _)

theorem Upto.get_bit (e : Endian) (r : Reader) : Upto (p.get_bit e r) (q.get_bit e r) :=
  Upto.bind (Upto.ite (Upto.refill64 h e r) (Upto.refl _)) fun _ =>
    Upto.bind (Upto.getVal h _ _ _) fun _ => Upto.refl _

theorem Upto.get_bits_32 (e : Endian) (r : Reader) (n : Nat) : Upto (p.get_bits_32 e r n) (q.get_bits_32 e r n) :=
  Upto.ite (Upto.refl _) <| Upto.bind (Upto.ite (Upto.refill32 h e r) (Upto.refl _)) fun _ =>
    Upto.bind (Upto.getVal h _ _ _) fun _ => Upto.refl _

theorem Upto.get_bits_64 (e : Endian) (r : Reader) (n : Nat) : Upto (p.get_bits_64 e r n) (q.get_bits_64 e r n) := by
  refine Upto.ite (Upto.refl _) ?_
  by_cases hl : r.left < n
  · simp only [hl, if_true]
    exact Upto.bind (Upto.getVal h _ _ _) fun _ => Upto.bind (Upto.refill64 h _ _) fun _ =>
      Upto.bind (Upto.refl _) fun _ => Upto.bind (Upto.getVal h _ _ _) fun _ => Upto.bind (Upto.mergeVal h _ _ _ _ _) fun _ => Upto.refl _
  · simp only [hl, if_false]
    exact Upto.bind (Upto.refl _) fun _ => Upto.bind (Upto.getVal h _ _ _) fun _ => Upto.bind (Upto.mergeVal h _ _ _ _ _) fun _ => Upto.refl _

theorem Upto.skip_bits (e : Endian) (r : Reader) (n : Nat) : Upto (p.skip_bits e r n) (q.skip_bits e r n) :=
  Upto.ite
    (Upto.bind (Upto.ite (Upto.bind (h.mul _ _) fun _ => Upto.bind (h.sub _ _) fun _ => Upto.bind (h.add _ _) fun _ =>
      Upto.refl _) (Upto.refl _)) fun _ => Upto.bind (Upto.refill64 h _ _) fun _ => Upto.refl _)
    (Upto.refl _)

theorem Upto.step (e : Endian) (r : Reader) (op : Op) : Upto (p.step e r op) (q.step e r op) := by
  cases op with
  | getBit => exact Upto.bind (Upto.get_bit h _ _) fun _ => Upto.refl _
  | get32 n => exact Upto.bind (Upto.get_bits_32 h _ _ _) fun _ => Upto.refl _
  | get64 n => exact Upto.bind (Upto.get_bits_64 h _ _ _) fun _ => Upto.refl _
  | skip n => exact Upto.bind (Upto.skip_bits h _ _ _) fun _ => Upto.refl _
  | align => exact Upto.bind (Upto.skip_bits h _ _ _) fun _ => Upto.refl _
  | peekBit => exact Upto.bind (Upto.get_bit h _ _) fun _ => Upto.refl _
  | peek32 n => exact Upto.bind (Upto.get_bits_32 h _ _ _) fun _ => Upto.refl _
  | peek64 n => exact Upto.bind (Upto.get_bits_64 h _ _ _) fun _ => Upto.refl _

theorem Upto.run (e : Endian) (r : Reader) (ops : List Op) : Upto (p.run e r ops) (q.run e r ops) := by
  induction ops generalizing r with
  | nil => exact Upto.refl _
  | cons op ops ih =>
    exact Upto.bind (Upto.step h e r op) fun _ => Upto.bind (ih _) fun _ => Upto.refl _

theorem Upto.consumed (r : Reader) : Upto (p.consumed r) (q.consumed r) :=
  Upto.bind (h.mul _ _) fun _ => h.sub _ _

theorem Upto.available (r : Reader) : Upto (p.available r) (q.available r) :=
  Upto.bind (h.sub _ _) fun _ => Upto.bind (h.mul _ _) fun _ => h.add _ _

end

/-- **C112** In a build without overflow checks the readers return what they return in a build with them: for every
buffer, every history of calls of any width, and `consumed` and `available` after it. -/
theorem c112_agrees (e : Endian) (buf : List U8) (ops : List Op) (r0 r : Reader) (vs : List (Option Nat))
    (h0 : newC e buf = .ok r0) (h : runC e r0 ops = .ok (vs, r)) :
    wrappingOps.new e buf = .ok r0 ∧ wrappingOps.run e r0 ops = .ok (vs, r) ∧
      (∀ k, consumedC r = .ok k → wrappingOps.consumed r = .ok k) ∧
      (∀ k, availableC r = .ok k → wrappingOps.available r = .ok k) := by
  obtain ⟨m1, m2, m3, m4⟩ := checkedOps_model
  rw [← m1] at h0
  rw [← m2] at h
  rw [← m3, ← m4]
  exact ⟨Upto.refill64 wrapping_le e _ _ h0, Upto.run wrapping_le e _ _ _ h, Upto.consumed wrapping_le r,
    Upto.available wrapping_le r⟩

example : ∃ r0 vs r, newC .be sample = .ok r0 ∧
    runC .be r0 [.get32 7, .skip 100, .get64 50, .align] = .ok (vs, r) ∧
    consumedC r = .ok 160 ∧ availableC r = .ok 32 := by
  refine ⟨_, _, _, rfl, rfl, ?_⟩
  decide +kernel

/-! ### No panics -/

theorem wrapping_getVal (e : Endian) (r : Reader) (n : Nat) : ∃ v, wrappingOps.getVal e r n = .ok (v, skipRem e r n) := by
  cases e
  · exact ⟨_, rfl⟩
  · exact ⟨_, rfl⟩

theorem wrapping_add (a b : Nat) (h : a + b < 2 ^ 64) : wrappingOps.add a b = .ok (a + b) := by
  simp only [wrappingOps, Nat.mod_eq_of_lt h]

theorem wrapping_canRefill (r : Reader) (h : r.index + 8 < 2 ^ 64) :
    wrappingOps.canRefill r = .ok (decide (r.index + 8 ≤ r.buffer.length)) := by
  simp only [Ops.canRefill, wrappingOps, ok_bind, pure_eq_ok, Nat.mod_eq_of_lt h]

/-- What a call keeps: the buffer; at most 64 bits in the cache; the index within the buffer, or moved by `j`. -/
structure Kept (r : Reader) (j : Nat) (r' : Reader) : Prop where
  buffer : r'.buffer = r.buffer
  left : r'.left ≤ 64
  index : r'.index ≤ max r.buffer.length (r.index + j)

theorem fill_ok (e : Endian) (r : Reader) (h : r.index + 8 ≤ r.buffer.length) :
    (∃ v, fill32 e r = .ok v) ∧ ∃ v, fill64 e r = .ok v := by
  have hc : BitRead.canRefill r = true := by simp [BitRead.canRefill, h]
  obtain ⟨v, a, _⟩ := fill32_spec e r hc
  obtain ⟨w, b, _⟩ := fill64_spec e r hc
  exact ⟨⟨_, a⟩, ⟨_, b⟩⟩

theorem wrapping_refill64 (e : Endian) (r : Reader) (h : r.index + 8 < 2 ^ 64) (hl : r.left ≤ 64) :
    ∃ r', wrappingOps.refill64 e r = .ok r' ∧ Kept r 0 r' := by
  unfold Ops.refill64
  rw [wrapping_canRefill r h]
  simp only [ok_bind]
  by_cases hc : r.index + 8 ≤ r.buffer.length
  · obtain ⟨v, hv⟩ := (fill_ok e r hc).2
    simp only [hc, hv, decide_true, Bool.not_true, Bool.false_eq_true, if_false, ok_bind, pure_eq_ok, wrappingOps,
      Nat.mod_eq_of_lt h]
    exact ⟨_, rfl, rfl, by simp, by simp only; omega⟩
  · simp only [hc, decide_false, Bool.not_false, if_true, pure_eq_ok]
    exact ⟨r, rfl, rfl, hl, by omega⟩

theorem wrapping_refill32 (e : Endian) (r : Reader) (h : r.index + 8 < 2 ^ 64) (hl : r.left ≤ 64) :
    ∃ r', wrappingOps.refill32 e r = .ok r' ∧ r'.buffer = r.buffer ∧ r'.left ≤ r.left + 32 ∧
      r'.index ≤ max r.buffer.length r.index := by
  unfold Ops.refill32
  rw [wrapping_canRefill r h]
  simp only [ok_bind]
  by_cases hc : r.index + 8 ≤ r.buffer.length
  · obtain ⟨v, hv⟩ := (fill_ok e r hc).1
    have hb : ∃ c, wrappingOps.buildCache e r.cache v r.left = .ok c := by
      cases e
      · exact ⟨_, rfl⟩
      · exact ⟨_, rfl⟩
    obtain ⟨c, hb⟩ := hb
    have h4 : r.index + 4 < 2 ^ 64 := by omega
    have h5 : r.left + 32 < 2 ^ 64 := by omega
    simp only [hc, hv, hb, decide_true, Bool.not_true, Bool.false_eq_true, if_false, ok_bind, pure_eq_ok,
      wrapping_add _ _ h4, wrapping_add _ _ h5]
    exact ⟨_, rfl, rfl, by simp, by simp only; omega⟩
  · simp only [hc, decide_false, Bool.not_false, if_true, pure_eq_ok]
    exact ⟨r, rfl, rfl, by omega, by omega⟩

theorem wrapping_getBit (e : Endian) (r : Reader) (h : r.index + 8 < 2 ^ 64) (hl : r.left ≤ 64) :
    ∃ v r', wrappingOps.get_bit e r = .ok (v, r') ∧ Kept r 0 r' := by
  have : ∃ r', (if r.left = 0 then wrappingOps.refill64 e r else .ok r) = .ok r' ∧ Kept r 0 r' := by
    split
    · exact wrapping_refill64 e r h hl
    · exact ⟨r, rfl, rfl, hl, by omega⟩
  obtain ⟨r1, a1, a2, a3, a4⟩ := this
  obtain ⟨v, hv⟩ := wrapping_getVal e r1 1
  refine ⟨v != 0, skipRem e r1 1, by simp only [Ops.get_bit, a1, ok_bind, hv, pure_eq_ok], ?_, ?_, ?_⟩
  · rw [skipRem_buffer, a2]
  · rw [skipRem_left]; omega
  · rw [skipRem_index]; exact a4

theorem wrapping_get32 (e : Endian) (r : Reader) (n : Nat) (h : r.index + 8 < 2 ^ 64) (hl : r.left ≤ 64) :
    ∃ v r', wrappingOps.get_bits_32 e r n = .ok (v, r') ∧ Kept r 0 r' := by
  unfold Ops.get_bits_32
  by_cases h0 : n = 0
  · exact ⟨0, r, by rw [if_pos h0], rfl, hl, by omega⟩
  rw [if_neg h0]
  have : ∃ r', (if r.left ≤ n then wrappingOps.refill32 e r else .ok r) = .ok r' ∧ r'.buffer = r.buffer ∧
      r'.left - n ≤ 64 ∧ r'.index ≤ max r.buffer.length r.index := by
    split
    · obtain ⟨r1, a1, a2, a3, a4⟩ := wrapping_refill32 e r h hl
      exact ⟨r1, a1, a2, by omega, a4⟩
    · exact ⟨r, rfl, rfl, by omega, by omega⟩
  obtain ⟨r1, a1, a2, a3, a4⟩ := this
  obtain ⟨v, hv⟩ := wrapping_getVal e r1 n
  refine ⟨v.setWidth 32, skipRem e r1 n, by simp only [a1, ok_bind, hv, pure_eq_ok], ?_, ?_, ?_⟩
  · rw [skipRem_buffer, a2]
  · rw [skipRem_left]; exact a3
  · rw [skipRem_index]; exact a4

theorem wrapping_get64 (e : Endian) (r : Reader) (n : Nat) (h : r.index + 8 < 2 ^ 64) (hl : r.left ≤ 64) :
    ∃ v r', wrappingOps.get_bits_64 e r n = .ok (v, r') ∧ Kept r 0 r' := by
  unfold Ops.get_bits_64
  by_cases h0 : n = 0
  · exact ⟨0, r, by rw [if_pos h0], rfl, hl, by omega⟩
  rw [if_neg h0]
  have merge : ∀ (m l : BitVec 64) (a b : Nat), ∃ v, wrappingOps.mergeVal e m l a b = .ok v := by
    intro m l a b
    cases e
    · exact ⟨_, rfl⟩
    · exact ⟨_, rfl⟩
  have last : ∀ (r1 : Reader) (k : Nat) (ret : BitVec 64) (left : Nat), Kept r 0 r1 →
      ∃ v r', (do
        let (v, r) ← wrappingOps.getVal e r1 k
        return (← wrappingOps.mergeVal e v ret left k, r)) = .ok (v, r') ∧ Kept r 0 r' := by
    intro r1 k ret left hk
    obtain ⟨v, hv⟩ := wrapping_getVal e r1 k
    obtain ⟨w, hw⟩ := merge v ret left k
    refine ⟨w, skipRem e r1 k, by simp only [hv, hw, ok_bind, pure_eq_ok], ?_, ?_, ?_⟩
    · rw [skipRem_buffer]; exact hk.buffer
    · rw [skipRem_left]; have := hk.left; omega
    · rw [skipRem_index]; exact hk.index
  by_cases hn : r.left < n
  · simp only [hn, if_true]
    obtain ⟨v, hv⟩ := wrapping_getVal e r r.left
    obtain ⟨r1, a1, a2⟩ := wrapping_refill64 e (skipRem e r r.left) (by rw [skipRem_index]; exact h)
      (by rw [skipRem_left]; omega)
    have a3 : Kept r 0 r1 := ⟨by rw [a2.buffer, skipRem_buffer], a2.left, by
      have := a2.index; rwa [skipRem_buffer, skipRem_index] at this⟩
    simp only [hv, a1, ok_bind]
    exact last r1 _ _ _ a3
  · simp only [hn, if_false]
    exact last r n 0 0 ⟨rfl, hl, by omega⟩

theorem wrapping_skip (e : Endian) (r : Reader) (n : Nat) (h : r.index + n / 8 + 8 < 2 ^ 64) (hl : r.left ≤ 64) :
    ∃ r', wrappingOps.skip_bits e r n = .ok r' ∧ Kept r (n / 8) r' := by
  unfold Ops.skip_bits
  by_cases hn : r.left < n
  · rw [if_pos hn]
    have hd : (n - r.left) / 8 ≤ n / 8 := Nat.div_le_div_right (by omega)
    have : ∃ m r1, (if n - r.left > 64 then do
        let skip := (n - r.left) / 8
        let n ← wrappingOps.sub (n - r.left) (← wrappingOps.mul skip 8)
        let index ← wrappingOps.add r.index skip
        return (n, { r with index := index })
      else return (n - r.left, r) : Rust (Nat × Reader)) = .ok (m, r1) ∧ Kept r (n / 8) r1 ∧
        r1.index ≤ r.index + n / 8 := by
      split
      · have h1 : r.index + (n - r.left) / 8 < 2 ^ 64 := by omega
        simp only [wrappingOps, ok_bind, pure_eq_ok, Nat.mod_eq_of_lt h1]
        exact ⟨_, _, rfl, ⟨rfl, hl, by simp only; omega⟩, by simp only; omega⟩
      · exact ⟨_, r, rfl, ⟨rfl, hl, by omega⟩, by omega⟩
    obtain ⟨m, r1, a1, a2, a3⟩ := this
    obtain ⟨r2, b1, b2⟩ := wrapping_refill64 e (skipRem e r1 m) (by rw [skipRem_index]; omega)
      (by rw [skipRem_left]; have := a2.left; omega)
    refine ⟨skipRem e r2 m, ?_, ?_, ?_, ?_⟩
    · dsimp only at a1 ⊢
      rw [a1]
      simp only [b1, ok_bind, pure_eq_ok]
    · rw [skipRem_buffer, b2.buffer, skipRem_buffer, a2.buffer]
    · rw [skipRem_left]; have := b2.left; omega
    · have := b2.index
      rw [skipRem_buffer, skipRem_index, a2.buffer] at this
      rw [skipRem_index]; omega
  · rw [if_neg hn]
    refine ⟨_, rfl, ?_, ?_, ?_⟩
    · rw [skipRem_buffer]
    · rw [skipRem_left]; omega
    · rw [skipRem_index]; omega

theorem wrapping_step (e : Endian) (r : Reader) (op : Op) (h : r.index + jumpOf op + 8 < 2 ^ 64) (hl : r.left ≤ 64) :
    ∃ v r', wrappingOps.step e r op = .ok (v, r') ∧ Kept r (jumpOf op) r' := by
  have h8 : r.index + 8 < 2 ^ 64 := by omega
  have self : ∀ j, Kept r j r := fun j => ⟨rfl, hl, by omega⟩
  cases op with
  | getBit =>
    obtain ⟨v, r', a, b⟩ := wrapping_getBit e r h8 hl
    exact ⟨some v.toNat, r', by simp only [Ops.step, a, ok_bind, pure_eq_ok], b⟩
  | get32 n =>
    obtain ⟨v, r', a, b⟩ := wrapping_get32 e r n h8 hl
    exact ⟨some v.toNat, r', by simp only [Ops.step, a, ok_bind, pure_eq_ok], b⟩
  | get64 n =>
    obtain ⟨v, r', a, b⟩ := wrapping_get64 e r n h8 hl
    exact ⟨some v.toNat, r', by simp only [Ops.step, a, ok_bind, pure_eq_ok], b⟩
  | skip n =>
    obtain ⟨r', a, b⟩ := wrapping_skip e r n h hl
    exact ⟨none, r', by simp only [Ops.step, a, ok_bind, pure_eq_ok], b⟩
  | align =>
    have h7 : (r.left &&& 7) / 8 = 0 := by
      have : r.left &&& 7 = r.left % 8 := Nat.and_two_pow_sub_one_eq_mod r.left 3
      rw [this]; omega
    obtain ⟨r', a, b⟩ := wrapping_skip e r (r.left &&& 7) (by rw [h7]; omega) hl
    rw [h7] at b
    exact ⟨none, r', by simp only [Ops.step, a, ok_bind, pure_eq_ok], b⟩
  | peekBit =>
    obtain ⟨v, r', a, b⟩ := wrapping_getBit e r h8 hl
    exact ⟨some v.toNat, r, by simp only [Ops.step, a, ok_bind, pure_eq_ok], self _⟩
  | peek32 n =>
    obtain ⟨v, r', a, b⟩ := wrapping_get32 e r n h8 hl
    exact ⟨some v.toNat, r, by simp only [Ops.step, a, ok_bind, pure_eq_ok], self _⟩
  | peek64 n =>
    obtain ⟨v, r', a, b⟩ := wrapping_get64 e r n h8 hl
    exact ⟨some v.toNat, r, by simp only [Ops.step, a, ok_bind, pure_eq_ok], self _⟩

theorem wrapping_run (e : Endian) (ops : List Op) (r : Reader)
    (h : max r.buffer.length r.index + skipped ops + 8 < 2 ^ 64) (hl : r.left ≤ 64) :
    ∃ vs r', wrappingOps.run e r ops = .ok (vs, r') ∧ r'.buffer = r.buffer := by
  induction ops generalizing r with
  | nil => exact ⟨[], r, rfl, rfl⟩
  | cons op ops ih =>
    simp only [skipped] at h
    obtain ⟨v, r1, a, b⟩ := wrapping_step e r op (by omega) hl
    obtain ⟨vs, r2, c, d⟩ := ih r1 (by have := b.index; rw [b.buffer]; omega) b.left
    exact ⟨v :: vs, r2, by simp only [Ops.run, a, c, ok_bind, pure_eq_ok], d.trans b.buffer⟩

/-- **C113, partial** In a build without overflow checks no call panics, whatever the widths (`c100_panics_exact_partial`
says which do with the checks), while the buffer and all skips together amount to less than `2^64 - 8` bytes. Missing:
longer skips, for which C113 is false. -/
theorem c113_partial (e : Endian) (buf : List U8) (ops : List Op) (hb : buf.length + skipped ops + 8 < 2 ^ 64) :
    ∃ r0 vs r, wrappingOps.new e buf = .ok r0 ∧ wrappingOps.run e r0 ops = .ok (vs, r) ∧
      (∃ k, wrappingOps.consumed r = .ok k) ∧ ∃ k, wrappingOps.available r = .ok k := by
  obtain ⟨r0, a, b⟩ := wrapping_refill64 e { buffer := buf, index := 0, cache := 0, left := 0 } (by simp) (by simp)
  have hb0 := b.buffer
  have hi := b.index
  simp only at hb0 hi
  obtain ⟨vs, r, c, _⟩ := wrapping_run e ops r0 (by rw [hb0]; omega) b.left
  exact ⟨r0, vs, r, a, c, ⟨_, rfl⟩, ⟨_, rfl⟩⟩

/-- A history that panics with the checks. -/
example : sample.length + skipped [Op.get64 24, .get32 50, .skip 1000] + 8 < 2 ^ 64 ∧
    ∃ r0, newC .be sample = .ok r0 ∧ runC .be r0 [.get64 24, .get32 50, .skip 1000] = .error .overflow :=
  ⟨by decide, _, rfl, by decide +kernel⟩

/-- **C113 fails** Eight skips by `usize::MAX` bits and one by 160 lead to index `2^64 - 4`, where `index + 8` wraps and
a refill seems possible. With 40 bits more, the index itself wraps, and the reader is back at the second byte. -/
theorem c113_fails (e : Endian) : ∃ r0, wrappingOps.new e sample = .ok r0 ∧
    wrappingOps.run e r0 (List.replicate 8 (.skip (2 ^ 64 - 1)) ++ [.skip 160]) = .error .slice ∧
    ∃ r, wrappingOps.run e r0 (List.replicate 8 (.skip (2 ^ 64 - 1)) ++ [.skip 200, .peek64 8]) =
      .ok (List.replicate 9 none ++ [some 0xc3], r) := by
  cases e
  · exact ⟨_, rfl, by decide +kernel, _, rfl⟩
  · exact ⟨_, rfl, by decide +kernel, _, rfl⟩

/-- **C100 fails**, also without overflow checks, where nothing panics: a 50-bit read with `get_bits_32`, and the
8-bit read after it, of the big-endian reader return other bits than those of the stream. -/
theorem c100_release_fails : ∃ r0 r, wrappingOps.new .be sample = .ok r0 ∧
    wrappingOps.run .be r0 [.get64 24, .get32 50, .get32 8] = .ok ([some 0x5ac381, some 3512328192, some 0], r) ∧
    (specRun .be sample 0 [.get64 24, .get64 50, .get64 8]).1 = [some 0x5ac381, some 554466610373226, some 243] ∧
    3512328192 ≠ 554466610373226 % 2 ^ 32 :=
  ⟨_, _, rfl, rfl, by decide +kernel, by decide⟩

/-! ### `available` -/

theorem Cur.next_idx_ge (len : Nat) (c : Cur) (op : Op) : c.idx ≤ (c.next len op).idx := by
  have hload : ∀ k, c.idx ≤ (c.load len k).idx := by
    intro k
    unfold Cur.load
    split
    · simp only; omega
    · omega
  cases op with
  | getBit =>
    simp only [Cur.next, Cur.prepare, Cur.drop]
    split
    · exact hload 8
    · omega
  | get64 n =>
    simp only [Cur.next, Cur.prepare, Cur.drop]
    split
    · exact hload 8
    · omega
  | get32 n =>
    simp only [Cur.next, Cur.prepare, Cur.drop]
    split
    · exact hload 4
    · omega
  | skip n =>
    simp only [Cur.next, Cur.skip]
    generalize (if n - c.left > 64 then (n - c.left) / 8 else 0) = j
    split
    · simp only [Cur.drop]; omega
    · split
      · simp only; omega
      · simp only [Cur.drop]; omega
  | align => simp only [Cur.next, Cur.drop]; omega
  | peekBit => simp only [Cur.next]; omega
  | peek32 n => simp only [Cur.next]; omega
  | peek64 n => simp only [Cur.next]; omega

theorem Cur.run_idx_ge (e : Endian) (buf : List U8) (ops : List Op) (c : Cur) : c.idx ≤ (Cur.run e buf c ops).2.idx := by
  induction ops generalizing c with
  | nil => simp [Cur.run]
  | cons op ops ih =>
    simp only [Cur.run]
    exact Nat.le_trans (Cur.next_idx_ge buf.length c op) (ih _)

/-- **C114, partial** What `available` returns without overflow checks after any history of calls whose widths fit and
whose skips amount to less than `2^61` bytes: the bits left in the buffer and the cache, or, once a skip has passed the
end, that number (negative, unless the cache holds more) modulo `2^64`. Missing: C114 is false past the end. -/
theorem c114_exact_partial (e : Endian) (buf : List U8) (ops : List Op) (hw : ∀ op ∈ ops, widthOk op)
    (hb : buf.length + skipped ops < 2 ^ 61) (c : Cur) (hc : c = (Cur.run e buf (.start buf.length) ops).2) :
    ∃ r0 r, wrappingOps.new e buf = .ok r0 ∧
      wrappingOps.run e r0 ops = .ok ((Cur.run e buf (.start buf.length) ops).1, r) ∧
      wrappingOps.available r = .ok (if c.idx ≤ buf.length then 8 * (buf.length - c.idx) + c.left
        else (2 ^ 64 - 8 * (c.idx - buf.length) + c.left) % 2 ^ 64) ∧ c.idx < 2 ^ 61 ∧ c.left ≤ 64 := by
  obtain ⟨r0, h1, h2, h3⟩ := new_follows e buf
  obtain ⟨r, a1, a2, a3⟩ := run_follows h3 ops hw
  have hi : (Cur.start buf.length).idx ≤ buf.length := by
    unfold Cur.start Cur.load
    split
    · simp only; omega
    · simp
  obtain ⟨b1, b2⟩ := runC_eq h3 ops hw (by rw [h2]; omega)
  rw [h2] at b2 a1 a2 a3
  have hn : newC e buf = .ok r0 := by
    rw [← h1]
    exact refill64C_eq e _ (by simp)
  obtain ⟨d1, d2, d3, d4⟩ := c112_agrees e buf ops r0 r _ hn (b1.trans a1)
  rw [← hc] at b2 a3
  obtain ⟨hl, hs, h64⟩ := a3.left
  have hidx := a3.idx
  have hlim := a3.lim_idx
  have hlim2 := a3.lim_le
  refine ⟨r0, r, d1, d2, ?_, by omega, by omega⟩
  rw [a2] at hlim2
  simp only [Ops.available, wrappingOps, ok_bind, a2, hl, hidx]
  rw [hl] at h64
  have hll : c.left ≤ 8 * c.idx := by unfold Cur.left; omega
  generalize c.left = left at *
  congr 1
  by_cases hcl : c.idx ≤ buf.length
  · simp only [hcl, if_true]; omega
  · simp only [hcl, if_false]; omega

example : (∀ op ∈ [Op.get32 7, .skip 300, .get64 64], widthOk op) ∧
    sample.length + skipped [Op.get32 7, .skip 300, .get64 64] < 2 ^ 61 ∧
    (Cur.run .le sample (.start 24) [Op.get32 7, .skip 300, .get64 64]).2.idx = 38 := by decide +kernel

/-- **C114 fails** Once a skip has passed the end, `available` claims more bits than the buffer has, and no calls
whatsoever (with widths that fit, and skips below `2^61` bytes in total) bring it down: a loop that reads while bits
are available does not end. -/
theorem c114_fails (e : Endian) (buf : List U8) (ops : List Op) (hw : ∀ op ∈ ops, widthOk op)
    (hb : 2 * buf.length + 32 + skipped ops < 2 ^ 61) :
    ∃ r0 vs r k, wrappingOps.new e buf = .ok r0 ∧
      wrappingOps.run e r0 (.skip (8 * buf.length + 256) :: ops) = .ok (vs, r) ∧
      wrappingOps.available r = .ok k ∧ 8 * buf.length < k := by
  obtain ⟨r0, r, a1, a2, a3, a4, a5⟩ := c114_exact_partial e buf (.skip (8 * buf.length + 256) :: ops)
    (by intro op hop; rcases List.mem_cons.mp hop with h | h; (subst h; trivial); exact hw op h)
    (by simp only [skipped, jumpOf]; omega) _ rfl
  have hge := Cur.run_idx_ge e buf ops (.next buf.length (.start buf.length) (.skip (8 * buf.length + 256)))
  have hfirst : buf.length + 24 ≤ (Cur.next buf.length (.start buf.length) (.skip (8 * buf.length + 256))).idx := by
    have hs : (Cur.start buf.length).left ≤ 64 := by
      unfold Cur.start Cur.load Cur.left
      split <;> simp
    simp only [Cur.next, Cur.skip]
    generalize Cur.start buf.length = c0 at *
    rw [if_neg (by omega)]
    have h64 : 8 * buf.length + 256 - c0.left > 64 := by omega
    simp only [h64, if_true]
    rw [if_neg (by omega)]
    simp only [Cur.drop]
    omega
  have hr : (Cur.run e buf (.start buf.length) (.skip (8 * buf.length + 256) :: ops)).2 =
      (Cur.run e buf (.next buf.length (.start buf.length) (.skip (8 * buf.length + 256))) ops).2 := rfl
  rw [hr] at a3 a4 a5
  generalize (Cur.run e buf (.next buf.length (.start buf.length) (.skip (8 * buf.length + 256))) ops).2 = c at *
  rw [if_neg (by omega)] at a3
  exact ⟨r0, _, r, _, a1, a2, a3, by omega⟩

example : (∀ op ∈ [Op.getBit, .get64 64, .align], widthOk op) ∧
    2 * sample.length + 32 + skipped [Op.getBit, .get64 64, .align] < 2 ^ 61 := by decide

end Verif.BitRead
