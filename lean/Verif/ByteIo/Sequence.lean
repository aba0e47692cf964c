import Verif.ByteIo.Props

/-! # C94: values written one behind the other are read back, in order, by typed stream reads -/

namespace Verif.ByteIo
open Verif Verif.Io Verif.Bytes

variable {R : Type}

/-- A value together with its type. -/
structure Val where
  type : Typed
  val : BitVec (8 * type.acc.bytes)

/-- Bytes taken by a list of values. -/
def total (vs : List Val) : Nat := (vs.map (·.type.acc.bytes)).sum

/-- `put_*(&mut buf[o..], v)` (bytewrite.rs:15-187): the slice expression panics when `o` is behind the buffer. -/
def putAt (buf : List U8) (o : Nat) (v : Val) : Rust (List U8) := do
  let tail ← sliceFrom buf o
  let tail ← v.type.acc.put tail v.val
  return buf.take o ++ tail

/-- Values written one behind the other. -/
def putMany : List U8 → Nat → List Val → Rust (List U8)
  | buf, _, [] => .ok buf
  | buf, o, v :: vs => do
    let buf ← putAt buf o v
    putMany buf (o + v.type.acc.bytes) vs

/-- The bytes of a value. -/
def enc (v : Val) : List U8 :=
  match v.type.acc.order with
  | .little => toLe v.type.acc.bytes v.val
  | .big => toBe v.type.acc.bytes v.val

theorem enc_length (v : Val) : (enc v).length = v.type.acc.bytes := by
  unfold enc; split <;> simp

theorem posValue_enc (v : Val) (m : List U8) :
    posValue v.type.acc.order v.type.acc.bytes (enc v ++ m) = v.val.toNat := by
  rw [posValue_append _ _ _ _ (enc_length v)]
  unfold enc
  cases h : v.type.acc.order
  · have := fromLe_toNat (w := 8 * v.type.acc.bytes) (toLe v.type.acc.bytes v.val) (by simp)
    rw [fromLe_toLe, toLe_length] at this
    exact this.symm
  · have := fromBe_toNat (w := 8 * v.type.acc.bytes) (toBe v.type.acc.bytes v.val) (by simp)
    rw [fromBe_toBe, toBe_length] at this
    exact this.symm

theorem putAt_ok (v : Val) (hv : v.type ∈ typed) (buf : List U8) (o : Nat)
    (h : o + v.type.acc.bytes ≤ buf.length) :
    putAt buf o v = .ok (buf.take o ++ enc v ++ buf.drop (o + v.type.acc.bytes)) := by
  unfold putAt
  rw [sliceFrom_ok (by omega)]
  simp only [ok_bind, pure_eq_ok]
  rw [accessor_put_spec _ (typed_mem hv) _ _ (by simp; omega)]
  simp only [ok_bind, List.drop_drop, List.append_assoc, enc]
  cases v.type.acc.order <;> rfl

theorem putMany_ok (vs : List Val) (hv : ∀ v ∈ vs, v.type ∈ typed) (buf : List U8) (o : Nat)
    (h : o + total vs ≤ buf.length) :
    putMany buf o vs = .ok (buf.take o ++ vs.flatMap enc ++ buf.drop (o + total vs)) := by
  induction vs generalizing buf o with
  | nil => simp [putMany, total]
  | cons v vs ih =>
    have ht : total (v :: vs) = v.type.acc.bytes + total vs := by simp [total]
    rw [ht] at h ⊢
    unfold putMany
    rw [putAt_ok v (hv v (by simp)) buf o (by omega)]
    simp only [ok_bind]
    have hl : (buf.take o ++ enc v).length = o + v.type.acc.bytes := by
      rw [List.length_append, enc_length, List.length_take]; omega
    rw [ih (fun v h => hv v (by simp [h])) _ _ (by
      rw [List.length_append, hl, List.length_drop]; omega)]
    congr 1
    rw [← hl, List.take_left, ← List.drop_drop, List.drop_left, List.drop_drop, hl]
    simp only [List.flatMap_cons, List.append_assoc, Nat.add_assoc]

theorem slices_enc (vs : List Val) (m : List U8) :
    slices (vs.map (·.type)) (vs.flatMap enc ++ m) = some (vs.map fun v => v.val.toNat) := by
  induction vs with
  | nil => rfl
  | cons v vs ih =>
    simp only [List.map_cons, slices, List.flatMap_cons, List.append_assoc]
    have := enc_length v
    have hd : (enc v ++ (vs.flatMap enc ++ m)).drop v.type.acc.bytes = vs.flatMap enc ++ m := List.drop_left' this
    rw [if_neg (by rw [List.length_append]; omega), posValue_enc, hd, ih]
    rfl

/-- **C94.** Values of any of the eighteen types, written one behind the other from offset `o` into a buffer with room
for them, leave the buffer's length and all other bytes alone; and any reader that does not fail and whose next bytes
are the buffer's from `o` on, however it splits its reads, returns exactly these values, in order, to the typed reads of
the same types, and then stands behind them. -/
theorem c94_round_trip (vs : List Val) (hv : ∀ v ∈ vs, v.type ∈ typed) (buf : List U8) (o : Nat)
    (h : o + total vs ≤ buf.length) :
    ∃ buf', putMany buf o vs = .ok buf' ∧ buf'.length = buf.length ∧
      (∀ i, i < o ∨ o + total vs ≤ i → buf'[i]? = buf[i]?) ∧
      ∀ (R : Type) (rd : Reader R) (fuel : Nat) (r : R), (∀ e, ¬ rd.fails e) → 8 < fuel → rd.Inv r →
        rd.rem r = buf'.drop o →
        ∃ r', getMany rd.read fuel r (vs.map (·.type)) = .ok (.ok (vs.map fun v => v.val.toNat), r') ∧
          rd.rem r' = buf.drop (o + total vs) := by
  have hlen : (vs.flatMap enc).length = total vs := by
    rw [List.length_flatMap]
    simp only [total, enc_length]
  refine ⟨_, putMany_ok vs hv buf o h, ?_, ?_, ?_⟩
  · simp only [List.length_append, hlen, List.length_take, List.length_drop]; omega
  · intro i hi
    rcases hi with hi | hi
    · rw [List.append_assoc, List.getElem?_append_left (by rw [List.length_take]; omega), List.getElem?_take_of_lt hi]
    · rw [List.getElem?_append_right (by rw [List.length_append, hlen, List.length_take]; omega), List.getElem?_drop,
        List.length_append, hlen, List.length_take, Nat.min_eq_left (by omega)]
      congr 1; omega
  · intro R rd fuel r hq hf hi hr
    have hr' : rd.rem r = vs.flatMap enc ++ buf.drop (o + total vs) := by
      rw [hr, List.append_assoc]
      have ho : (buf.take o).length = o := by rw [List.length_take]; omega
      exact List.drop_left' ho
    obtain ⟨r', a1, a2⟩ := (c60_sequence (vs.map (·.type)) (by
      intro t ht
      obtain ⟨v, h1, rfl⟩ := List.mem_map.1 ht
      exact hv v h1) rd hq fuel hf r hi).1 _ (by rw [hr']; exact slices_enc vs _)
    refine ⟨r', a1, ?_⟩
    rw [a2, hr', List.map_map]
    have : (List.map ((fun x => x.acc.bytes) ∘ fun x => x.type) vs).sum = (vs.flatMap enc).length := by
      rw [hlen]; rfl
    rw [this, List.drop_left]

/-- **C94.** Without room the writing panics: nothing is ever written behind the buffer. -/
theorem c94_no_room (vs : List Val) (hv : ∀ v ∈ vs, v.type ∈ typed) (buf : List U8) (o : Nat)
    (ho : vs ≠ []) (h : buf.length < o + total vs) : ∃ e, putMany buf o vs = .error e := by
  induction vs generalizing buf o with
  | nil => exact absurd rfl ho
  | cons v vs ih =>
    have ht : total (v :: vs) = v.type.acc.bytes + total vs := by simp [total]
    rw [ht] at h
    unfold putMany
    by_cases h1 : o + v.type.acc.bytes ≤ buf.length
    · rw [putAt_ok v (hv v (by simp)) buf o h1]
      simp only [ok_bind]
      apply ih (fun v h => hv v (by simp [h]))
      · rintro rfl
        simp [total] at h
        omega
      · simp only [List.length_append, enc_length, List.length_take, List.length_drop]; omega
    · unfold putAt
      by_cases h2 : o ≤ buf.length
      · rw [sliceFrom_ok h2]
        obtain ⟨e, he⟩ := (c02_put_frame v.type.acc (typed_mem (hv v (by simp))) (buf.drop o) v.val).2 (by
          rw [List.length_drop]; omega)
        exact ⟨e, by simp only [ok_bind, he, error_bind]⟩
      · refine ⟨.slice, ?_⟩
        simp [sliceFrom, h2, error_bind]

/-- A 16-bit big-endian, a 32-bit little-endian and a signed byte value. -/
def sampleVals : List Val :=
  [⟨⟨⟨"u16b", 2, .big, Bytes.get_u16b, Bytes.put_u16b⟩, get_u16b, peek_u16b⟩, 0x1234#16⟩,
   ⟨⟨⟨"u32l", 4, .little, Bytes.get_u32l, Bytes.put_u32l⟩, get_u32l, peek_u32l⟩, 0xdeadbeef#32⟩,
   ⟨⟨⟨"i8", 1, .little, Bytes.get_i8, Bytes.put_i8⟩, get_i8, peek_i8⟩, 0xff#8⟩]

example : total sampleVals = 7 ∧ putMany (List.replicate 9 7) 1 sampleVals =
    .ok [7, 0x12, 0x34, 0xef, 0xbe, 0xad, 0xde, 0xff, 7] := by decide

example : ∀ v ∈ sampleVals, v.type ∈ typed := by
  intro v hv
  simp only [sampleVals, List.mem_cons, List.not_mem_nil, or_false] at hv
  rcases hv with rfl | rfl | rfl <;> simp only [typed, List.mem_cons, true_or, or_true]

/-- A reader delivering one or two bytes at a time reads them back. -/
example : (match getMany (sourceReader short 0).read 9
      ⟨[7, 0x12, 0x34, 0xef, 0xbe, 0xad, 0xde, 0xff, 7], 1, short, 0⟩ (sampleVals.map (·.type)) with
    | .ok (x, s) => decide (x = .ok [0x1234, 0xdeadbeef, 0xff] ∧ s.pos = 8)
    | _ => false) = true := by decide

end Verif.ByteIo
