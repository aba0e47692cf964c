import Verif.BitRead.Narrow

/-!
# C113, C123: skips around the end of the address space

Without overflow checks the index of a bit reader wraps. Which histories of calls panic then, without any bound on the
skips: a reader seen from afar has an index and a number of bits in hand only, and these decide.
-/

namespace Verif.BitRead
open Verif Verif.Bytes Verif.Data

/-- Where a reader is: at a byte of the address space, with some bits in hand. -/
structure Mark where
  idx : Nat
  left : Nat
  deriving DecidableEq, Repr

/-- Bits used up. -/
def Mark.less (m : Mark) (n : Nat) : Mark := ⟨m.idx, m.left - n⟩

/-- Loading `k` of the next eight bytes: done if the buffer has eight more, not done otherwise; but in the last eight
bytes of the address space the test `index + 8 <= len` wraps around, and if it succeeds the slice is out of range. -/
def Mark.load (b len : Nat) (m : Mark) (k left : Nat) : Option Mark :=
  if m.idx + 8 ≤ len then some ⟨m.idx + k, left⟩
  else if 2 ^ b ≤ m.idx + 8 ∧ m.idx + 8 ≤ 2 ^ b + len then none
  else some m

/-- Where a call leaves the reader; `none` for a panic. -/
def Mark.next (b len : Nat) (m : Mark) : Op → Option Mark
  | .getBit => (if m.left = 0 then m.load b len 8 64 else some m).map (·.less 1)
  | .get32 n => if n = 0 then some m else (if m.left ≤ n then m.load b len 4 (m.left + 32) else some m).map (·.less n)
  | .get64 n =>
    if m.left < n then ((m.less m.left).load b len 8 64).map (·.less (n - m.left)) else some (m.less n)
  | .skip n =>
    if m.left < n then
      let k := n - m.left
      if k > 64 then ((Mark.mk ((m.idx + k / 8) % 2 ^ b) (m.left - k % 8)).load b len 8 64).map (·.less (k % 8))
      else ((m.less k).load b len 8 64).map (·.less k)
    else some (m.less n)
  | .align => some (m.less (m.left % 8))
  | .peekBit => (if m.left = 0 then m.load b len 8 64 else some m).map fun _ => m
  | .peek32 n => if n = 0 then some m else (if m.left ≤ n then m.load b len 4 0 else some m).map fun _ => m
  | .peek64 n => (if m.left < n then m.load b len 8 0 else some m).map fun _ => m

def Mark.run (b len : Nat) (m : Mark) : List Op → Option Mark
  | [] => some m
  | op :: ops => (m.next b len op).bind (·.run b len ops)

/-- Where `new` leaves the reader. -/
def Mark.start (len : Nat) : Mark := if 8 ≤ len then ⟨8, 64⟩ else ⟨0, 0⟩

/-- The reader is there. -/
structure Mark.Of (buf : List U8) (r : Reader) (m : Mark) : Prop where
  buffer : r.buffer = buf
  idx : r.index = m.idx
  left : r.left = m.left

/-- The call ends as the mark says. -/
def Mark.Tells (b : Nat) (buf : List U8) (x : Rust Reader) : Option Mark → Prop
  | none => x = .error .slice
  | some m => ∃ r, x = .ok r ∧ m.Of buf r ∧ m.left ≤ 64 ∧ m.idx < 2 ^ b

theorem Mark.Of.less {buf r m} (h : Mark.Of buf r m) (e : Endian) (n : Nat) :
    (m.less n).Of buf (skipRem e r n) :=
  ⟨by rw [skipRem_buffer, h.buffer], by rw [skipRem_index, h.idx]; rfl, by rw [skipRem_left, h.left]; rfl⟩

theorem unchecked_add (b x y : Nat) : (narrowOps b false).add x y = .ok ((x + y) % 2 ^ b) := by
  simp only [narrowOps, Bool.false_eq_true, if_false]
  split
  · rw [Nat.mod_eq_of_lt (by assumption)]
  · rfl

theorem unchecked_mul (b x y : Nat) : (narrowOps b false).mul x y = .ok (x * y % 2 ^ b) := by
  simp only [narrowOps, Bool.false_eq_true, if_false]
  split
  · rw [Nat.mod_eq_of_lt (by assumption)]
  · rfl

theorem unchecked_sub (b x y : Nat) : (narrowOps b false).sub x y = .ok (if y ≤ x then x - y else x + 2 ^ b - y) := by
  simp only [narrowOps, Bool.false_eq_true, if_false]
  split <;> rfl

theorem unchecked_shl (b : Nat) (x : BitVec 64) (n : Nat) : ∃ y, (narrowOps b false).shl x n = .ok y := by
  simp only [narrowOps, Bool.false_eq_true, if_false]
  split <;> exact ⟨_, rfl⟩

theorem narrow_getVal (b : Nat) (e : Endian) (r : Reader) (n : Nat) :
    ∃ v, (narrowOps b false).getVal e r n = .ok (v, skipRem e r n) := by
  cases e
  · exact ⟨_, rfl⟩
  · simp only [Ops.getVal, Ops.peekVal, narrowOps, Bool.false_eq_true, if_false]
    split <;> exact ⟨_, rfl⟩

theorem mod_once {x w : Nat} (h1 : w ≤ x) (h2 : x < 2 * w) : x % w = x - w := by
  rw [Nat.mod_eq_sub_mod h1, Nat.mod_eq_of_lt (by omega)]

variable {b : Nat}

theorem around_can {buf r m} (h : Mark.Of buf r m) :
    (narrowOps b false).canRefill r = .ok (decide ((m.idx + 8) % 2 ^ b ≤ buf.length)) := by
  simp only [Ops.canRefill, unchecked_add, ok_bind, pure_eq_ok, h.idx, h.buffer]

theorem around_fill (e : Endian) {r : Reader} (h : r.buffer.length < r.index) :
    fill32 e r = .error .slice ∧ fill64 e r = .error .slice := by
  have : sliceFrom r.buffer r.index = .error .slice := by
    unfold sliceFrom
    rw [if_neg (by omega)]
  exact ⟨by simp only [fill32, this, error_bind], by simp only [fill64, this, error_bind]⟩

theorem around_refill64 (e : Endian) {buf r m} (hB : 128 ≤ 2 ^ b) (hb : 2 * buf.length < 2 ^ b) (h : Mark.Of buf r m) (hl : m.left ≤ 64)
    (hi : m.idx < 2 ^ b) : Mark.Tells b buf ((narrowOps b false).refill64 e r) (m.load b buf.length 8 64) := by
  unfold Ops.refill64 Mark.load
  rw [around_can h]
  simp only [ok_bind]
  by_cases hc : m.idx + 8 ≤ buf.length
  · have hm : (m.idx + 8) % 2 ^ b = m.idx + 8 := Nat.mod_eq_of_lt (by omega)
    obtain ⟨v, hv⟩ := (fill_ok e r (by rw [h.idx, h.buffer]; exact hc)).2
    rw [hm, if_pos hc]
    simp only [hc, hv, decide_true, Bool.not_true, Bool.false_eq_true, if_false, ok_bind, pure_eq_ok, unchecked_add,
      h.idx, hm]
    exact ⟨_, rfl, ⟨h.buffer, rfl, rfl⟩, by simp, by simp only; omega⟩
  · rw [if_neg hc]
    by_cases hw : 2 ^ b ≤ m.idx + 8 ∧ m.idx + 8 ≤ 2 ^ b + buf.length
    · have hd : (m.idx + 8) % 2 ^ b ≤ buf.length := by rw [mod_once hw.1 (by omega)]; omega
      have hf := (around_fill e (r := r) (by rw [h.buffer, h.idx]; omega)).2
      rw [if_pos hw]
      simp only [hd, hf, decide_true, Bool.not_true, Bool.false_eq_true, if_false, error_bind, Mark.Tells]
    · have hd : ¬ (m.idx + 8) % 2 ^ b ≤ buf.length := by
        by_cases hx : m.idx + 8 < 2 ^ b
        · rw [Nat.mod_eq_of_lt hx]; exact hc
        · rw [mod_once (by omega) (by omega)]; omega
      rw [if_neg hw]
      simp only [hd, decide_false, Bool.not_false, if_true, pure_eq_ok]
      exact ⟨r, rfl, h, hl, hi⟩

theorem around_build (e : Endian) (c v : BitVec 64) (l : Nat) : ∃ x, (narrowOps b false).buildCache e c v l = .ok x := by
  cases e
  · obtain ⟨y, hy⟩ := unchecked_shl b v l
    exact ⟨_, by simp only [Ops.buildCache, hy, ok_bind]; rfl⟩
  · simp only [Ops.buildCache, unchecked_sub, ok_bind]
    obtain ⟨y, hy⟩ := unchecked_shl b v (if l ≤ 32 then 32 - l else 32 + 2 ^ b - l)
    exact ⟨_, by rw [hy]; rfl⟩

theorem around_merge (e : Endian) (m l : BitVec 64) (x y : Nat) : ∃ z, (narrowOps b false).mergeVal e m l x y = .ok z := by
  cases e
  · obtain ⟨z, hz⟩ := unchecked_shl b m x
    exact ⟨_, by simp only [Ops.mergeVal, hz, ok_bind]; rfl⟩
  · exact ⟨_, rfl⟩

/-- `refill32` may leave more than 64 bits; the caller takes `n` of them at once. -/
theorem around_refill32 (e : Endian) {buf r m} (hB : 128 ≤ 2 ^ b) (hb : 2 * buf.length < 2 ^ b) (h : Mark.Of buf r m) (hl : m.left ≤ 64)
    (hi : m.idx < 2 ^ b) :
    match m.load b buf.length 4 (m.left + 32) with
    | none => (narrowOps b false).refill32 e r = .error .slice
    | some m' => ∃ r', (narrowOps b false).refill32 e r = .ok r' ∧ m'.Of buf r' ∧ m'.idx < 2 ^ b ∧ m'.left ≤ m.left + 32 := by
  unfold Ops.refill32 Mark.load
  rw [around_can h]
  simp only [ok_bind]
  by_cases hc : m.idx + 8 ≤ buf.length
  · have hm : (m.idx + 8) % 2 ^ b = m.idx + 8 := Nat.mod_eq_of_lt (by omega)
    have hm4 : (m.idx + 4) % 2 ^ b = m.idx + 4 := Nat.mod_eq_of_lt (by omega)
    have hml : (m.left + 32) % 2 ^ b = m.left + 32 := Nat.mod_eq_of_lt (by omega)
    obtain ⟨v, hv⟩ := (fill_ok e r (by rw [h.idx, h.buffer]; exact hc)).1
    obtain ⟨x, hx⟩ := around_build (b := b) e r.cache v r.left
    rw [hm, if_pos hc]
    simp only [hc, hv, hx, decide_true, Bool.not_true, Bool.false_eq_true, if_false, ok_bind, pure_eq_ok]
    simp only [unchecked_add, h.idx, h.left, hm4, hml, ok_bind]
    exact ⟨_, rfl, ⟨h.buffer, rfl, rfl⟩, by omega, Nat.le_refl _⟩
  · rw [if_neg hc]
    by_cases hw : 2 ^ b ≤ m.idx + 8 ∧ m.idx + 8 ≤ 2 ^ b + buf.length
    · have hd : (m.idx + 8) % 2 ^ b ≤ buf.length := by rw [mod_once hw.1 (by omega)]; omega
      have hf := (around_fill e (r := r) (by rw [h.buffer, h.idx]; omega)).1
      rw [if_pos hw]
      simp only [hd, hf, decide_true, Bool.not_true, Bool.false_eq_true, if_false, error_bind]
    · have hd : ¬ (m.idx + 8) % 2 ^ b ≤ buf.length := by
        by_cases hx : m.idx + 8 < 2 ^ b
        · rw [Nat.mod_eq_of_lt hx]; exact hc
        · rw [mod_once (by omega) (by omega)]; omega
      rw [if_neg hw]
      simp only [hd, decide_false, Bool.not_false, if_true, pure_eq_ok]
      exact ⟨r, rfl, h, hi, by omega⟩

/-- As `Tells`, for calls with a value. -/
def Mark.TellsOf (b : Nat) (buf : List U8) (x : Rust (α × Reader)) : Option Mark → Prop
  | none => x = .error .slice
  | some m => ∃ v r, x = .ok (v, r) ∧ m.Of buf r ∧ m.left ≤ 64 ∧ m.idx < 2 ^ b

theorem around_getBit (e : Endian) {buf r m} (hB : 128 ≤ 2 ^ b) (hb : 2 * buf.length < 2 ^ b) (h : Mark.Of buf r m) (hl : m.left ≤ 64)
    (hi : m.idx < 2 ^ b) : Mark.TellsOf b buf ((narrowOps b false).get_bit e r) (m.next b buf.length .getBit) := by
  have first : Mark.Tells b buf (if r.left = 0 then (narrowOps b false).refill64 e r else .ok r)
      (if m.left = 0 then m.load b buf.length 8 64 else some m) := by
    rw [h.left]
    by_cases h0 : m.left = 0
    · simp only [h0, if_true]; exact around_refill64 e hB hb h hl hi
    · simp only [h0, if_false]; exact ⟨r, rfl, h, hl, hi⟩
  unfold Ops.get_bit Mark.next
  generalize (if m.left = 0 then m.load b buf.length 8 64 else some m) = o at first
  cases o with
  | none => simp only [Mark.Tells] at first; simp only [first, error_bind, Option.map_none, Mark.TellsOf]
  | some m1 =>
    obtain ⟨r1, a1, a2, a3, a4⟩ := first
    obtain ⟨v, hv⟩ := narrow_getVal b e r1 1
    exact ⟨v != 0, skipRem e r1 1, by simp only [a1, ok_bind, hv, pure_eq_ok], a2.less e 1,
      by simp only [Mark.less]; omega, a4⟩

theorem around_get32 (e : Endian) {buf r m} (n : Nat) (hB : 128 ≤ 2 ^ b) (hb : 2 * buf.length < 2 ^ b) (h : Mark.Of buf r m) (hl : m.left ≤ 64)
    (hi : m.idx < 2 ^ b) : Mark.TellsOf b buf ((narrowOps b false).get_bits_32 e r n) (m.next b buf.length (.get32 n)) := by
  unfold Ops.get_bits_32 Mark.next
  by_cases hn : n = 0
  · simp only [hn, if_true]; exact ⟨_, _, rfl, h, hl, hi⟩
  simp only [hn, if_false, h.left]
  by_cases h0 : m.left ≤ n
  · simp only [h0, if_true]
    have := around_refill32 e hB hb h hl hi
    generalize m.load b buf.length 4 (m.left + 32) = o at this
    cases o with
    | none => simp only at this; simp only [this, error_bind, Option.map_none, Mark.TellsOf]
    | some m1 =>
      obtain ⟨r1, a1, a2, a3, a4⟩ := this
      obtain ⟨v, hv⟩ := narrow_getVal b e r1 n
      exact ⟨v.setWidth 32, skipRem e r1 n, by simp only [a1, ok_bind, hv, pure_eq_ok], a2.less e n,
        by simp only [Mark.less]; omega, a3⟩
  · simp only [h0, if_false]
    obtain ⟨v, hv⟩ := narrow_getVal b e r n
    exact ⟨v.setWidth 32, skipRem e r n, by simp only [ok_bind, hv, pure_eq_ok], h.less e n,
      by simp only [Mark.less]; omega, hi⟩

theorem around_get64 (e : Endian) {buf r m} (n : Nat) (hB : 128 ≤ 2 ^ b) (hb : 2 * buf.length < 2 ^ b) (h : Mark.Of buf r m) (hl : m.left ≤ 64)
    (hi : m.idx < 2 ^ b) : Mark.TellsOf b buf ((narrowOps b false).get_bits_64 e r n) (m.next b buf.length (.get64 n)) := by
  unfold Ops.get_bits_64 Mark.next
  by_cases hn : n = 0
  · subst hn
    simp only [if_true, Nat.not_lt_zero, if_false]
    exact ⟨_, _, rfl, ⟨h.buffer, h.idx, h.left⟩, hl, hi⟩
  simp only [hn, if_false, h.left]
  by_cases h0 : m.left < n
  · simp only [h0, if_true]
    obtain ⟨v, hv⟩ := narrow_getVal b e r m.left
    have := around_refill64 e hB hb (h.less e m.left) (by simp only [Mark.less]; omega) hi
    generalize (m.less m.left).load b buf.length 8 64 = o at this
    cases o with
    | none => simp only [Mark.Tells] at this; simp only [hv, this, ok_bind, error_bind, Option.map_none, Mark.TellsOf]
    | some m1 =>
      obtain ⟨r1, a1, a2, a3, a4⟩ := this
      obtain ⟨w, hw⟩ := narrow_getVal b e r1 (n - m.left)
      obtain ⟨x, hx⟩ := around_merge (b := b) e w v m.left (n - m.left)
      exact ⟨x, _, by simp only [hv, a1, hw, hx, ok_bind, pure_eq_ok], a2.less e _, by simp only [Mark.less]; omega, a4⟩
  · simp only [h0, if_false]
    obtain ⟨w, hw⟩ := narrow_getVal b e r n
    obtain ⟨x, hx⟩ := around_merge (b := b) e w 0 0 n
    exact ⟨x, _, by simp only [hw, hx, ok_bind, pure_eq_ok], h.less e _, by simp only [Mark.less]; omega, hi⟩

theorem around_skip (e : Endian) {buf r m} (n : Nat) (hn : n < 2 ^ b) (hB : 128 ≤ 2 ^ b) (hb : 2 * buf.length < 2 ^ b) (h : Mark.Of buf r m)
    (hl : m.left ≤ 64) (hi : m.idx < 2 ^ b) :
    Mark.Tells b buf ((narrowOps b false).skip_bits e r n) (m.next b buf.length (.skip n)) := by
  have last : ∀ (r1 : Reader) (m1 : Mark) (k : Nat), m1.Of buf r1 → m1.left ≤ 64 → m1.idx < 2 ^ b →
      Mark.Tells b buf (do
        let r ← (narrowOps b false).refill64 e (skipRem e r1 k)
        return skipRem e r k) (((m1.less k).load b buf.length 8 64).map (·.less k)) := by
    intro r1 m1 k g1 g2 g3
    have := around_refill64 e hB hb (g1.less e k) (by simp only [Mark.less]; omega) g3
    generalize (m1.less k).load b buf.length 8 64 = o at this
    cases o with
    | none => simp only [Mark.Tells] at this; simp only [this, error_bind, Option.map_none, Mark.Tells]
    | some m2 =>
      obtain ⟨r2, a1, a2, a3, a4⟩ := this
      exact ⟨_, by simp only [a1, ok_bind, pure_eq_ok], a2.less e k, by simp only [Mark.less]; omega, a4⟩
  unfold Ops.skip_bits Mark.next
  simp only [h.left]
  by_cases h0 : m.left < n
  · simp only [h0, if_true]
    by_cases hk : n - m.left > 64
    · simp only [hk, if_true]
      have h1 : (n - m.left) / 8 * 8 % 2 ^ b = (n - m.left) / 8 * 8 := Nat.mod_eq_of_lt (by omega)
      have h2 : (n - m.left) / 8 * 8 ≤ n - m.left := by omega
      have h3 : n - m.left - (n - m.left) / 8 * 8 = (n - m.left) % 8 := by omega
      have := last { r with index := (m.idx + (n - m.left) / 8) % 2 ^ b } ⟨(m.idx + (n - m.left) / 8) % 2 ^ b, m.left⟩
        ((n - m.left) % 8) ⟨h.buffer, rfl, h.left⟩ hl (Nat.mod_lt _ (by omega))
      have e1 : (narrowOps b false).mul ((n - m.left) / 8) 8 = .ok ((n - m.left) / 8 * 8) := by simp only [unchecked_mul, h1]
      have e2 : (narrowOps b false).sub (n - m.left) ((n - m.left) / 8 * 8) = .ok ((n - m.left) % 8) := by
        simp only [unchecked_sub, h2, h3, if_true]
      have e3 : (narrowOps b false).add r.index ((n - m.left) / 8) = .ok ((m.idx + (n - m.left) / 8) % 2 ^ b) := by
        simp only [unchecked_add, h.idx]
      simp only [e1, e2, e3, ok_bind, pure_eq_ok, h.left] at this ⊢
      exact this
    · simp only [hk, if_false, pure_eq_ok, ok_bind]
      exact last r m _ h hl hi
  · simp only [h0, if_false]
    exact ⟨_, rfl, h.less e n, by simp only [Mark.less]; omega, hi⟩

theorem load_any {len k l l' k'} (m : Mark) : (m.load b len k l).isSome = (m.load b len k' l').isSome := by
  unfold Mark.load
  split
  · rfl
  · split <;> rfl

/-- A peek is a read of a copy. -/
theorem around_peek {α : Type} {buf r} {m : Mark} {x : Rust (α × Reader)} {o p : Option Mark} (f : α → Nat)
    (h : Mark.TellsOf b buf x o) (hr : m.Of buf r) (hl : m.left ≤ 64) (hi : m.idx < 2 ^ b) (hp : p.isSome = o.isSome)
    (hm : ∀ q, p = some q → q = m) :
    Mark.TellsOf b buf (do let (v, _) ← x; return (some (f v), r) : Rust (Option Nat × Reader)) p := by
  cases p with
  | none =>
    cases o with
    | none => simp only [Mark.TellsOf] at h ⊢; rw [h]; rfl
    | some _ => exact nomatch hp
  | some q =>
    cases o with
    | none => exact nomatch hp
    | some _ =>
      obtain ⟨v, r', a, _⟩ := h
      cases hm q rfl
      exact ⟨_, r, by rw [a]; rfl, hr, hl, hi⟩

theorem around_step (e : Endian) {buf r m} (op : Op) (hn : Usize b op) (hB : 128 ≤ 2 ^ b) (hb : 2 * buf.length < 2 ^ b) (h : Mark.Of buf r m)
    (hl : m.left ≤ 64) (hi : m.idx < 2 ^ b) :
    Mark.TellsOf b buf ((narrowOps b false).step e r op) (m.next b buf.length op) := by
  have val : ∀ {α : Type} (x : Rust (α × Reader)) (f : α → Nat) (o : Option Mark), Mark.TellsOf b buf x o →
      Mark.TellsOf b buf (do let (v, r) ← x; return (some (f v), r) : Rust (Option Nat × Reader)) o := by
    intro α x f o hx
    cases o with
    | none => simp only [Mark.TellsOf] at hx ⊢; rw [hx]; rfl
    | some m1 =>
      obtain ⟨v, r', a, b⟩ := hx
      exact ⟨_, r', by rw [a]; rfl, b⟩
  have non : ∀ (x : Rust Reader) (o : Option Mark), Mark.Tells b buf x o →
      Mark.TellsOf b buf (do let r ← x; return (none, r) : Rust (Option Nat × Reader)) o := by
    intro x o hx
    cases o with
    | none => simp only [Mark.TellsOf, Mark.Tells] at hx ⊢; rw [hx]; rfl
    | some m1 =>
      obtain ⟨r', a, b⟩ := hx
      exact ⟨_, r', by rw [a]; rfl, b⟩
  cases op with
  | getBit => exact val _ _ _ (around_getBit e hB hb h hl hi)
  | get32 n => exact val _ _ _ (around_get32 e n hB hb h hl hi)
  | get64 n => exact val _ _ _ (around_get64 e n hB hb h hl hi)
  | skip n => exact non _ _ (around_skip e n hn hB hb h hl hi)
  | align =>
    have h7 : r.left &&& 7 = m.left % 8 := by
      rw [h.left]; exact Nat.and_two_pow_sub_one_eq_mod m.left 3
    have := non _ _ (around_skip e (r.left &&& 7) (by rw [h7]; omega) hB hb h hl hi)
    rw [h7] at this
    have hno : ¬ m.left < m.left % 8 := by omega
    simp only [Mark.next, hno, if_false] at this
    simp only [Ops.step, h7]
    exact this
  | peekBit =>
    refine around_peek _ (around_getBit e hB hb h hl hi) h hl hi ?_ ?_
    · simp only [Mark.next, Option.isSome_map]
    · intro q hq
      simp only [Mark.next, Option.map_eq_some_iff] at hq
      obtain ⟨_, _, hq⟩ := hq; exact hq.symm
  | peek32 n =>
    refine around_peek _ (around_get32 e n hB hb h hl hi) h hl hi ?_ ?_
    · simp only [Mark.next]
      by_cases h0 : n = 0
      · simp only [h0, if_true]
      · simp only [h0, if_false, Option.isSome_map]
        split
        · exact load_any m
        · rfl
    · intro q hq
      simp only [Mark.next] at hq
      split at hq
      · cases hq; rfl
      · rw [Option.map_eq_some_iff] at hq
        obtain ⟨_, _, hq⟩ := hq; exact hq.symm
  | peek64 n =>
    refine around_peek _ (around_get64 e n hB hb h hl hi) h hl hi ?_ ?_
    · simp only [Mark.next, Option.isSome_map]
      split
      · rw [Option.isSome_map]
        unfold Mark.load Mark.less
        split
        · rfl
        · split <;> rfl
      · rfl
    · intro q hq
      simp only [Mark.next, Option.map_eq_some_iff] at hq
      obtain ⟨_, _, hq⟩ := hq; exact hq.symm

theorem around_run (e : Endian) {buf : List U8} (ops : List Op) (hB : 128 ≤ 2 ^ b) (hb : 2 * buf.length < 2 ^ b) :
    ∀ {r m}, (∀ op ∈ ops, Usize b op) → Mark.Of buf r m → m.left ≤ 64 → m.idx < 2 ^ b →
      Mark.TellsOf b buf ((narrowOps b false).run e r ops) (m.run b buf.length ops) := by
  induction ops with
  | nil => intro r m _ h hl hi; exact ⟨_, _, rfl, h, hl, hi⟩
  | cons op ops ih =>
    intro r m hu h hl hi
    have hs := around_step e op (hu op (by simp)) hB hb h hl hi
    simp only [Mark.run, Ops.run]
    cases ho : m.next b buf.length op with
    | none =>
      rw [ho] at hs
      simp only [Mark.TellsOf] at hs
      simp only [hs, error_bind, Option.bind_none, Mark.TellsOf]
    | some m1 =>
      rw [ho] at hs
      obtain ⟨v, r1, a1, a2, a3, a4⟩ := hs
      have := ih (fun o h => hu o (List.mem_cons_of_mem _ h)) a2 a3 a4
      simp only [a1, ok_bind, Option.bind_some]
      generalize m1.run b buf.length ops = o at this
      cases o with
      | none => simp only [Mark.TellsOf] at this ⊢; rw [this]; rfl
      | some m2 =>
        obtain ⟨vs, r2, b1, b2⟩ := this
        exact ⟨v :: vs, r2, by simp only [b1, ok_bind, pure_eq_ok], b2⟩

/-- **C123, partial** Which histories of calls panic without overflow checks on a target whose `usize` has `b` bits, for
every buffer, all widths and all skips by a `usize`: those that ask for more bytes when the index is one of the last
eight addresses, and `index + 8`, modulo `2^b`, within the buffer. Every other history returns, with the index and the
bits in hand that `Mark.run` says. Missing: C123 is false of the former. -/
theorem c123_unchecked_partial (b : Nat) (h7 : 7 ≤ b) (e : Endian) (buf : List U8) (ops : List Op)
    (hb : buf.length < 2 ^ (b - 1)) (hu : ∀ op ∈ ops, Usize b op) :
    ∃ r0, (narrowOps b false).new e buf = .ok r0 ∧
      match (Mark.start buf.length).run b buf.length ops with
      | none => (narrowOps b false).run e r0 ops = .error .slice
      | some m => ∃ vs r, (narrowOps b false).run e r0 ops = .ok (vs, r) ∧ r.buffer = buf ∧ r.index = m.idx ∧
          r.left = m.left := by
  have hB : 128 ≤ 2 ^ b := Nat.pow_le_pow_right (n := 2) (by decide) h7
  have hb : 2 * buf.length < 2 ^ b := by
    obtain ⟨c, rfl⟩ : ∃ c, b = c + 1 := ⟨b - 1, by omega⟩
    rw [Nat.add_sub_cancel] at hb
    rw [Nat.pow_succ]; omega
  have hs := around_refill64 e (r := ⟨buf, 0, 0, 0⟩) (m := ⟨0, 0⟩) hB hb ⟨rfl, rfl, rfl⟩ (by simp) (by simp only; omega)
  have hm : Mark.load b buf.length ⟨0, 0⟩ 8 64 = some (Mark.start buf.length) := by
    unfold Mark.load Mark.start
    simp only [Nat.zero_add]
    split
    · rfl
    · rw [if_neg (by omega)]
  rw [hm] at hs
  obtain ⟨r0, a1, a2, a3, a4⟩ := hs
  refine ⟨r0, a1, ?_⟩
  have := around_run e ops hB hb hu a2 a3 a4
  cases ho : (Mark.start buf.length).run b buf.length ops with
  | none => rw [ho] at this; exact this
  | some m =>
    rw [ho] at this
    obtain ⟨vs, r, b1, b2, _⟩ := this
    exact ⟨vs, r, b1, b2.buffer, b2.idx, b2.left⟩

/-- **C113, partial** Which histories of calls panic without overflow checks, for every buffer, all widths and all skips
by a `usize`: those that ask for more bytes when the index is one of the last eight addresses, and `index + 8`, modulo
`2^64`, within the buffer. Every other history returns, with the index and the bits in hand that `Mark.run` says.
Missing: C113 is false of the former. -/
theorem c113_exact_partial (e : Endian) (buf : List U8) (ops : List Op) (hb : buf.length < 2 ^ 63)
    (hu : ∀ op ∈ ops, Usize 64 op) :
    ∃ r0, wrappingOps.new e buf = .ok r0 ∧
      match (Mark.start buf.length).run 64 buf.length ops with
      | none => wrappingOps.run e r0 ops = .error .slice
      | some m => ∃ vs r, wrappingOps.run e r0 ops = .ok (vs, r) ∧ r.buffer = buf ∧ r.index = m.idx ∧ r.left = m.left := by
  have := c123_unchecked_partial 64 (by decide) e buf ops hb hu
  rw [narrowOps_64.2] at this
  exact this

/-- Eight skips by `usize::MAX` bits, then by 160, or by 200, or by 96: a panic, back at the front, no more bytes. -/
example : sample.length < 2 ^ 63 ∧ (∀ op ∈ List.replicate 8 (Op.skip (2 ^ 64 - 1)) ++ [.skip 160], Usize 64 op) ∧
    (Mark.start 24).run 64 24 (List.replicate 8 (Op.skip (2 ^ 64 - 1)) ++ [.skip 160]) = none ∧
    (Mark.start 24).run 64 24 (List.replicate 8 (Op.skip (2 ^ 64 - 1)) ++ [.skip 200]) = some ⟨9, 64⟩ ∧
    (Mark.start 24).run 64 24 (List.replicate 8 (Op.skip (2 ^ 64 - 1)) ++ [.skip 96]) = some ⟨2 ^ 64 - 12, 0⟩ := by
  decide +kernel

/-- The same with 32 bits. -/
example : (∀ op ∈ List.replicate 8 (Op.skip (2 ^ 32 - 1)) ++ [.skip 160], Usize 32 op) ∧
    (Mark.start 24).run 32 24 (List.replicate 8 (Op.skip (2 ^ 32 - 1)) ++ [.skip 160]) = none ∧
    (Mark.start 24).run 32 24 (List.replicate 8 (Op.skip (2 ^ 32 - 1)) ++ [.skip 200]) = some ⟨9, 64⟩ := by
  decide +kernel

/-- The addresses, and a buffer too short for a panic at the last but five. -/
example : (List.range 9).map (fun k => (Mark.load 64 24 ⟨2 ^ 64 - 9 + k, 0⟩ 8 64).isNone) =
      [false, true, true, true, true, true, true, true, true] ∧
    Mark.load 64 2 ⟨2 ^ 64 - 6, 0⟩ 8 64 = none ∧ (Mark.load 64 2 ⟨2 ^ 64 - 5, 0⟩ 8 64).isSome := by decide +kernel

end Verif.BitRead
