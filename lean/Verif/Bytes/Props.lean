import Verif.Bytes.Lemmas

/-! # C01–C03: typed byte reads and writes -/

namespace Verif.Bytes
open Verif

/-- **C01** Writing any value with any typed setter into a large enough buffer and reading it back
with the matching getter yields that value. -/
theorem c01_put_get (a : Accessor) (ha : a ∈ accessors) (buf : List U8)
    (h : a.bytes ≤ buf.length) (v : BitVec (8 * a.bytes)) :
    ∃ buf', a.put buf v = .ok buf' ∧ a.get buf' = .ok v := by
  refine ⟨_, accessor_put_spec a ha buf v h, ?_⟩
  rw [accessor_get_eq a ha]
  cases ho : a.order <;> simp [getGen]
  · exact fromLe_toLe _ v
  · exact fromBe_toBe _ v

/-- The table covers all typed pairs (a test of the table, not a property). -/
example : accessors.map (·.name) = ["u8", "i8", "u16l", "u16b", "u32l", "u32b", "u64l", "u64b",
  "i16l", "i16b", "i32l", "i32b", "i64l", "i64b", "f32l", "f32b", "f64l", "f64b"] := by decide

example : (do get_u32b (← put_u32b [1, 2, 3, 4, 5] 0xdeadbeef#32)) = .ok 0xdeadbeef#32 := by decide
example : put_u32b [1, 2, 3, 4, 5] 0xdeadbeef#32 = .ok [0xde, 0xad, 0xbe, 0xef, 5] := by decide

/-- **C02** A typed write succeeds exactly when the buffer holds the type's size; it keeps the
buffer's length and every byte behind the written ones; otherwise it panics (and, being a panic,
returns no buffer). -/
theorem c02_put_frame (a : Accessor) (ha : a ∈ accessors) (buf : List U8)
    (v : BitVec (8 * a.bytes)) :
    (a.bytes ≤ buf.length → ∃ buf', a.put buf v = .ok buf' ∧ buf'.length = buf.length ∧
      ∀ i, a.bytes ≤ i → buf'[i]? = buf[i]?) ∧
    (buf.length < a.bytes → ∃ e, a.put buf v = .error e) := by
  constructor
  · intro h
    refine ⟨_, accessor_put_spec a ha buf v h, ?_, ?_⟩
    · cases a.order <;> simp <;> omega
    · intro i hi
      have e : a.bytes + (i - a.bytes) = i := by omega
      cases a.order <;> simp [List.getElem?_append, Nat.not_lt.mpr hi, e]
  · intro h
    exact accessor_put_err a ha buf v (by omega)

example : put_u16l [1, 2, 3] 0x0a0b#16 = .ok [0x0b, 0x0a, 3] := by decide
example : put_u16l [1] 0x0a0b#16 = .error .slice := by decide

/-- **C03** A typed read panics exactly when the buffer is shorter than the type; otherwise its bits,
read as an unsigned number, are the positional value of the leading bytes in the documented byte
order. -/
theorem c03_get_value (a : Accessor) (ha : a ∈ accessors) (buf : List U8) :
    (a.bytes ≤ buf.length → ∃ v, a.get buf = .ok v ∧
      v.toNat = posValue a.order a.bytes buf) ∧
    (buf.length < a.bytes → ∃ e, a.get buf = .error e) := by
  rw [accessor_get_eq a ha]
  constructor
  · intro h
    have hl : (buf.take a.bytes).length = a.bytes := by simp [h]
    cases ho : a.order <;> simp [getGen, h]
    · have := fromLe_toNat (w := 8 * a.bytes) (buf.take a.bytes) (by omega)
      rw [this, hl, posValue_take]
    · have := fromBe_toNat (w := 8 * a.bytes) (buf.take a.bytes) (by omega)
      rw [this, hl, posValue_take]
  · intro h
    exact ⟨.assert, by simp [getGen, Nat.not_le.mpr h]⟩

/-- **C03** for the signed reads: the two's-complement value is the positional value reduced into
`[-2^(N-1), 2^(N-1))`. -/
theorem c03_get_signed (a : Accessor) (ha : a ∈ accessors) (buf : List U8)
    (h : a.bytes ≤ buf.length) : ∃ v, a.get buf = .ok v ∧
      v.toInt = ((posValue a.order a.bytes buf : Nat) : Int).bmod (2 ^ (8 * a.bytes)) := by
  obtain ⟨v, h1, h2⟩ := (c03_get_value a ha buf).1 h
  refine ⟨v, h1, ?_⟩
  rw [BitVec.toInt_eq_toNat_bmod, h2]

example : posValue .big 4 [0x01, 0x02, 0x03, 0x04, 9] = 0x01020304 := by decide
example : posValue .little 4 [0x01, 0x02, 0x03, 0x04, 9] = 0x04030201 := by decide
example : (get_i16b [0xff, 0xfe]).toOption.map BitVec.toInt = some (-2) := by decide

/-- C02/C01 combined: two writes at disjoint places do not disturb each other. Writing at offset
`o` leaves an earlier field `[0, a.bytes)` readable. -/
theorem c02_disjoint_writes (a b : Accessor) (ha : a ∈ accessors) (hb : b ∈ accessors)
    (buf : List U8) (o : Nat) (ho : a.bytes ≤ o) (h : o + b.bytes ≤ buf.length)
    (v : BitVec (8 * a.bytes)) (w : BitVec (8 * b.bytes)) :
    ∃ b1 t2, a.put buf v = .ok b1 ∧ b.put (b1.drop o) w = .ok t2 ∧
      a.get (b1.take o ++ t2) = .ok v ∧ b.get ((b1.take o ++ t2).drop o) = .ok w := by
  obtain ⟨b1, hp, hg⟩ := c01_put_get a ha buf (by omega) v
  obtain ⟨b1', hp', hl, _⟩ := (c02_put_frame a ha buf v).1 (by omega)
  rw [hp] at hp'; cases hp'
  obtain ⟨t2, hq, hr⟩ := c01_put_get b hb (b1.drop o) (by simp; omega) w
  refine ⟨b1, t2, hp, hq, ?_, ?_⟩
  · rw [accessor_get_eq a ha] at hg ⊢
    have e : (b1.take o ++ t2).take a.bytes = b1.take a.bytes := by
      rw [List.take_append_of_le_length (by simp; omega), List.take_take]
      congr 1; omega
    unfold getGen at hg ⊢
    rw [e, if_pos (by simp; omega)]
    rw [if_pos (by omega)] at hg
    exact hg
  · have : (b1.take o ++ t2).drop o = t2 := by
      rw [List.drop_append_of_le_length (by simp; omega)]
      simp
    rw [this]; exact hr

example : (4 : Nat) ≤ 5 ∧ 5 + 2 ≤ ([0, 0, 0, 0, 0, 0, 0, 0] : List U8).length := by decide

end Verif.Bytes
