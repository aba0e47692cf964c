import Verif.BitRead.Props
import Verif.Bytes.Props

/-! # C95: at byte boundaries the bit readers agree with the byte functions -/

namespace Verif.BitRead
open Verif Verif.Bytes

/-- The byte order of a reader. -/
def orderOf : Endian → Bytes.Order
  | .le => .little
  | .be => .big

theorem posValue_succ (o : Bytes.Order) (k : Nat) (l : List U8) :
    posValue o (k + 1) l = match o with
      | .little => posValue o k l + 2 ^ (8 * k) * (l.getD k 0).toNat
      | .big => posValue o k l * 2 ^ 8 + (l.getD k 0).toNat := by
  have h256 : ∀ k, (256 : Nat) ^ k = 2 ^ (8 * k) := fun k => by rw [Nat.pow_mul]
  unfold posValue
  rw [List.range_succ, List.map_append, List.sum_append]
  cases o
  · simp only [List.map_cons, List.map_nil, List.sum_cons, List.sum_nil, h256, Nat.add_zero]
    rw [Nat.mul_comm (2 ^ _)]
  · simp only [List.map_cons, List.map_nil, List.sum_cons, List.sum_nil, Nat.add_zero, Nat.add_sub_cancel,
      Nat.sub_self, Nat.pow_zero, Nat.mul_one]
    congr 1
    rw [Nat.mul_comm _ (2 ^ 8), ← sum_map_mul]
    congr 1
    apply List.map_congr_left
    intro i hi
    rw [List.mem_range] at hi
    rw [show k - i = (k - 1 - i) + 1 by omega, Nat.pow_succ]
    rw [Nat.mul_comm (256 ^ _) 256, ← Nat.mul_assoc, ← Nat.mul_assoc, Nat.mul_comm _ 256]

theorem bit_byte (e : Endian) (buf : List U8) (i j : Nat) (hj : j < 8) :
    bit e buf (8 * i + j) = match e with
      | .le => (buf.getD i 0).getLsbD j
      | .be => (buf.getD i 0).getMsbD j := by
  unfold bit
  rw [show (8 * i + j) / 8 = i by omega, show (8 * i + j) % 8 = j by omega]
  cases e <;> rfl

theorem byte_sum_le : ∀ b : U8,
    0 + (b.getLsbD 0).toNat * 2 ^ 0 + (b.getLsbD 1).toNat * 2 ^ 1 + (b.getLsbD 2).toNat * 2 ^ 2 +
    (b.getLsbD 3).toNat * 2 ^ 3 + (b.getLsbD 4).toNat * 2 ^ 4 + (b.getLsbD 5).toNat * 2 ^ 5 +
    (b.getLsbD 6).toNat * 2 ^ 6 + (b.getLsbD 7).toNat * 2 ^ 7 = b.toNat := by decide +kernel

theorem byte_sum_be : ∀ b : U8,
    2 * (2 * (2 * (2 * (2 * (2 * (2 * (2 * 0 + (b.getMsbD 0).toNat) + (b.getMsbD 1).toNat) +
      (b.getMsbD 2).toNat) + (b.getMsbD 3).toNat) + (b.getMsbD 4).toNat) + (b.getMsbD 5).toNat) +
      (b.getMsbD 6).toNat) + (b.getMsbD 7).toNat = b.toNat := by decide +kernel

theorem valueAt_byte (e : Endian) (buf : List U8) (i : Nat) :
    valueAt e buf (8 * i) 8 = (buf.getD i 0).toNat := by
  have h := fun j hj => bit_byte e buf i j hj
  cases e
  · simp only [valueAt]
    rw [h 0 (by decide), h 1 (by decide), h 2 (by decide), h 3 (by decide), h 4 (by decide), h 5 (by decide),
      h 6 (by decide), h 7 (by decide)]
    exact byte_sum_le _
  · simp only [valueAt]
    rw [h 0 (by decide), h 1 (by decide), h 2 (by decide), h 3 (by decide), h 4 (by decide), h 5 (by decide),
      h 6 (by decide), h 7 (by decide)]
    exact byte_sum_be _

theorem valueAt_bytes (e : Endian) (buf : List U8) (o k : Nat) :
    valueAt e buf (8 * o) (8 * k) = posValue (orderOf e) k (buf.drop o) := by
  induction k with
  | zero => simp [valueAt, posValue]
  | succ k ih =>
    rw [Nat.mul_succ, valueAt_add, posValue_succ, ih, ← Nat.mul_add, valueAt_byte]
    have : (buf.drop o).getD k 0 = buf.getD (o + k) 0 := by
      simp [List.getD_eq_getElem?_getD, List.getElem?_drop]
    rw [this]
    cases e <;> rfl

/-- **C95.** After any in-data history that ends at a byte boundary `8 * o`, reading `8 * k` bits with any of the read
functions yields the value which the typed byte functions of the reader's byte order read at offset `o` of the buffer:
`get_bits_32(16)` on the big-endian reader is `get_u16b(&buf[o..])`, and so on for every type of `k` bytes. -/
theorem c95_bytes (e : Endian) (buf : List U8) (pre : List Op) (o k : Nat) (op : Op)
    (hpre : within buf 0 pre) (hpos : (specRun e buf 0 pre).2 = 8 * o) (hop : IsRead (8 * k) op)
    (hin : 8 * (o + k) + 64 ≤ 8 * buf.length) (a : Accessor) (ha : a ∈ accessors) (hk : a.bytes = k)
    (hord : a.order = orderOf e ∨ k = 1) :
    ∃ r0 vpre r1 v r2 w, new e buf = .ok r0 ∧ run e r0 pre = .ok (vpre, r1) ∧
      step e r1 op = .ok (some v, r2) ∧ a.get (buf.drop o) = .ok w ∧ v = w.toNat ∧
      consumed r2 = .ok (8 * (o + k)) := by
  obtain ⟨r0, h1, h2, _, h3⟩ := new_spec e buf
  obtain ⟨r1, a1, a2, a3⟩ := run_within h3 pre (by rw [h2]; exact hpre)
  rw [h2] at a1 a3
  have hb : r1.buffer = buf := by rw [a2, h2]
  rw [hpos] at a3
  obtain ⟨s1, s2, s3, s4⟩ := hop.spec e buf (8 * o)
  obtain ⟨r2, b1, b2, b3⟩ := run_within a3 [op] (by
    rw [hb]
    exact ⟨s1, by rw [s2]; omega, trivial⟩)
  rw [hb] at b1 b3
  simp only [specRun, s3, s4] at b1 b3
  have hs : step e r1 op = .ok (some (valueAt e buf (8 * o) (8 * k)), r2) := by
    cases hst : step e r1 op with
    | error p => simp [run, hst] at b1
    | ok q =>
      simp only [run, hst, ok_bind, pure_eq_ok, Except.ok.injEq, Prod.mk.injEq, List.cons.injEq, and_true] at b1
      rw [← b1.1, ← b1.2]
  obtain ⟨w, c1, c2⟩ := (c03_get_value a ha (buf.drop o)).1 (by rw [List.length_drop]; omega)
  refine ⟨r0, _, r1, _, r2, w, h1, a1, hs, c1, ?_, ?_⟩
  · rw [c2, valueAt_bytes, hk]
    rcases hord with h | h
    · rw [h]
    · subst h
      cases a.order <;> cases e <;> simp [posValue, orderOf]
  · rw [b3.consumed, Nat.mul_add]

example : within sample 0 [.get32 3, .getBit, .align, .skip 8] ∧
    (specRun .be sample 0 [.get32 3, .getBit, .align, .skip 8]).2 = 8 * 2 ∧ IsRead (8 * 4) (.get32 32) ∧
    8 * (2 + 4) + 64 ≤ 8 * sample.length := by
  exact ⟨by decide, by decide, .inr (.inl ⟨rfl, by decide⟩), by decide⟩
example : get_u32b (sample.drop 2) = .ok 0x817e1234#32 ∧
    (do return (← run .be (← new .be sample) [.get32 3, .getBit, .align, .skip 8, .get32 32]).1) =
    .ok [some 2, some 1, none, none, some 0x817e1234] := by decide

/-- **C95** is about byte boundaries only: one bit off, the value is not that of the bytes. -/
example : valueAt .be sample 1 8 ≠ (sample.getD 0 0).toNat := by decide

end Verif.BitRead
