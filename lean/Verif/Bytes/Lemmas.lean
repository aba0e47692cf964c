import Verif.Bytes.Spec

/-! # Helper lemmas about byte/integer conversions -/

namespace Verif.Bytes
open Verif

theorem fromLe_getLsbD (w : Nat) (bs : List U8) (i : Nat) :
    (fromLe w bs).getLsbD i = (decide (i < w) && (bs.getD (i / 8) 0).getLsbD (i % 8)) := by
  induction bs generalizing i with
  | nil => simp [fromLe]
  | cons b bs ih =>
    simp only [fromLe, BitVec.getLsbD_or, BitVec.getLsbD_shiftLeft, BitVec.getLsbD_setWidth, ih]
    by_cases h : i < 8
    · have h1 : i / 8 = 0 := by omega
      have h2 : i % 8 = i := by omega
      simp [h, h1, h2]
    · have h1 : i / 8 = (i - 8) / 8 + 1 := by omega
      have h2 : i % 8 = (i - 8) % 8 := by omega
      have h3 : b.getLsbD i = false := BitVec.getLsbD_of_ge _ _ (by omega)
      rw [h1, h2, h3]
      by_cases hw : i < w
      · simp [h, hw, show i - 8 < w by omega]
      · simp [hw]

theorem fromBe_eq (w : Nat) (bs : List U8) : fromBe w bs = fromLe w bs.reverse := by
  unfold fromBe
  rw [List.foldl_eq_foldr_reverse]
  generalize bs.reverse = l
  induction l with
  | nil => rfl
  | cons b l ih => simp only [List.foldr_cons, fromLe, ih]

@[simp] theorem toLe_length (k : Nat) (x : BitVec w) : (toLe k x).length = k := by simp [toLe]
@[simp] theorem toBe_length (k : Nat) (x : BitVec w) : (toBe k x).length = k := by simp [toBe]

theorem toBe_eq (k : Nat) (x : BitVec w) : toBe k x = (toLe k x).reverse := by
  apply List.ext_getElem
  · simp
  · intro i h1 h2
    simp [toBe, toLe]

theorem fromLe_toLe (k : Nat) (x : BitVec (8 * k)) : fromLe (8 * k) (toLe k x) = x := by
  apply BitVec.eq_of_getLsbD_eq
  intro i hi
  have hk : i / 8 < k := by omega
  have h8 : i % 8 < 8 := by omega
  have e : 8 * (i / 8) + i % 8 = i := by omega
  rw [fromLe_getLsbD]
  simp only [toLe, List.getD_eq_getElem?_getD, List.getElem?_map, List.getElem?_range hk, hi,
    Option.map_some, Option.getD_some, BitVec.getLsbD_setWidth, BitVec.getLsbD_ushiftRight, h8, e,
    decide_true, Bool.true_and]

theorem fromBe_toBe (k : Nat) (x : BitVec (8 * k)) : fromBe (8 * k) (toBe k x) = x := by
  rw [fromBe_eq, toBe_eq, List.reverse_reverse, fromLe_toLe]

theorem toNat_fromLe_cons {w : Nat} (b : U8) (bs : List U8) (h : 8 * (bs.length + 1) ≤ w)
    (hb : (fromLe w bs).toNat < 2 ^ (8 * bs.length)) :
    (fromLe w (b :: bs)).toNat = 256 * (fromLe w bs).toNat + b.toNat := by
  have hbl : b.toNat < 256 := b.isLt
  have hw : b.toNat < 2 ^ w := Nat.lt_of_lt_of_le hbl
    (Nat.le_trans (by decide : (256 : Nat) ≤ 2 ^ 8) (Nat.pow_le_pow_right (by decide) (by omega)))
  have hs : 256 * (fromLe w bs).toNat < 2 ^ w := by
    have : 2 ^ (8 * (bs.length + 1)) ≤ 2 ^ w := Nat.pow_le_pow_right (by decide) h
    have e : 2 ^ (8 * (bs.length + 1)) = 256 * 2 ^ (8 * bs.length) := by
      rw [Nat.mul_add, Nat.pow_add, Nat.mul_comm]
    omega
  simp only [fromLe, BitVec.toNat_or, BitVec.toNat_shiftLeft, BitVec.toNat_setWidth]
  have e1 : (fromLe w bs).toNat <<< 8 = 256 * (fromLe w bs).toNat := by
    rw [Nat.shiftLeft_eq, Nat.mul_comm]
  rw [Nat.mod_eq_of_lt hw, Nat.mod_eq_of_lt (by rw [e1]; exact hs),
    ← Nat.shiftLeft_add_eq_or_of_lt hbl, e1]

theorem fromLe_lt {w : Nat} (bs : List U8) (h : 8 * bs.length ≤ w) :
    (fromLe w bs).toNat < 2 ^ (8 * bs.length) := by
  induction bs with
  | nil => simp [fromLe]
  | cons b bs ih =>
    have hl : 8 * (bs.length + 1) ≤ w := by simpa using h
    have ih' := ih (by omega)
    rw [toNat_fromLe_cons b bs hl ih']
    have hbl : b.toNat < 256 := b.isLt
    have e : 2 ^ (8 * (bs.length + 1)) = 256 * 2 ^ (8 * bs.length) := by
      rw [Nat.mul_add, Nat.pow_add, Nat.mul_comm]
    simp only [List.length_cons]
    omega

theorem sum_map_mul (c : Nat) (l : List Nat) (f : Nat → Nat) :
    (l.map fun i => c * f i).sum = c * (l.map f).sum := by
  induction l with
  | nil => simp
  | cons a l ih => simp [ih, Nat.mul_add]

theorem posValue_little_succ (k : Nat) (b : U8) (bs : List U8) :
    posValue .little (k + 1) (b :: bs) = 256 * posValue .little k bs + b.toNat := by
  unfold posValue
  rw [List.range_succ_eq_map, ← sum_map_mul]
  simp only [List.map_cons, List.map_map, List.sum_cons]
  have : ((List.range k).map ((fun i => ((b :: bs).getD i 0).toNat * 256 ^ i) ∘ Nat.succ)) =
      (List.range k).map (fun i => 256 * ((bs.getD i 0).toNat * 256 ^ i)) := by
    apply List.map_congr_left
    intro i _
    simp [Nat.pow_succ]
    ac_rfl
  simp only [this]
  simp
  omega

theorem fromLe_toNat {w : Nat} (bs : List U8) (h : 8 * bs.length ≤ w) :
    (fromLe w bs).toNat = posValue .little bs.length bs := by
  induction bs with
  | nil => simp [fromLe, posValue]
  | cons b bs ih =>
    have hl : 8 * (bs.length + 1) ≤ w := by simpa using h
    rw [toNat_fromLe_cons b bs hl (fromLe_lt bs (by omega)), ih (by omega)]
    simp only [List.length_cons]
    rw [posValue_little_succ]

theorem sum_map_range_reverse (k : Nat) (f : Nat → Nat) :
    ((List.range k).map fun i => f (k - 1 - i)).sum = ((List.range k).map f).sum := by
  have : ((List.range k).map fun i => f (k - 1 - i)) = ((List.range k).map f).reverse := by
    apply List.ext_getElem
    · simp
    · intro i h1 h2
      simp
  rw [this, List.sum_reverse]

theorem posValue_big_reverse (bs : List U8) :
    posValue .big bs.length bs = posValue .little bs.length bs.reverse := by
  unfold posValue
  rw [← sum_map_range_reverse bs.length
    (fun i => (bs.reverse.getD i 0).toNat * 256 ^ i)]
  apply congrArg
  apply List.map_congr_left
  intro i hi
  have hi : i < bs.length := List.mem_range.mp hi
  have h1 : bs.length - 1 - i < bs.length := by omega
  have h2 : bs.length - 1 - (bs.length - 1 - i) = i := by omega
  simp [List.getD_eq_getElem?_getD, hi, h1, h2]

theorem fromBe_toNat {w : Nat} (bs : List U8) (h : 8 * bs.length ≤ w) :
    (fromBe w bs).toNat = posValue .big bs.length bs := by
  rw [fromBe_eq, fromLe_toNat _ (by simpa using h), posValue_big_reverse]
  simp

theorem posValue_take (o : Order) (k : Nat) (buf : List U8) :
    posValue o k (buf.take k) = posValue o k buf := by
  unfold posValue
  apply congrArg
  apply List.map_congr_left
  intro i hi
  have hi : i < k := List.mem_range.mp hi
  simp [List.getD_eq_getElem?_getD, hi]

/-! ### getters and setters as one generic pair -/

/-- Generic getter of width `8*k`. -/
def getGen (o : Order) (k : Nat) (buf : List U8) : Rust (BitVec (8 * k)) :=
  if k ≤ buf.length then
    .ok (match o with
      | .little => fromLe (8 * k) (buf.take k)
      | .big => fromBe (8 * k) (buf.take k))
  else .error .assert

/-- Generic setter. -/
def putGen (o : Order) (k : Nat) (buf : List U8) (v : BitVec (8 * k)) : Rust (List U8) :=
  copyToStart buf (match o with | .little => toLe k v | .big => toBe k v)

theorem get_u8_eq (buf : List U8) : get_u8 buf = getGen .little 1 buf := by
  match buf with
  | [] => rfl
  | a :: t =>
    simp [get_u8, getGen, rassert, idx, fromLe]

theorem get_u16l_eq (buf : List U8) : get_u16l buf = getGen .little 2 buf := by
  match buf with
  | [] | [_] => rfl
  | a :: b :: t => simp [get_u16l, getGen, rassert, idx]
theorem get_u16b_eq (buf : List U8) : get_u16b buf = getGen .big 2 buf := by
  match buf with
  | [] | [_] => rfl
  | a :: b :: t => simp [get_u16b, getGen, rassert, idx]
theorem get_u32l_eq (buf : List U8) : get_u32l buf = getGen .little 4 buf := by
  match buf with
  | [] | [_] | [_, _] | [_, _, _] => rfl
  | a :: b :: c :: d :: t => simp [get_u32l, getGen, rassert, idx]
theorem get_u32b_eq (buf : List U8) : get_u32b buf = getGen .big 4 buf := by
  match buf with
  | [] | [_] | [_, _] | [_, _, _] => rfl
  | a :: b :: c :: d :: t => simp [get_u32b, getGen, rassert, idx]
theorem get_u64l_eq (buf : List U8) : get_u64l buf = getGen .little 8 buf := by
  match buf with
  | [] | [_] | [_, _] | [_, _, _] | [_, _, _, _] | [_, _, _, _, _] | [_, _, _, _, _, _]
  | [_, _, _, _, _, _, _] => rfl
  | a :: b :: c :: d :: e :: f :: g :: h :: t => simp [get_u64l, getGen, rassert, idx]
theorem get_u64b_eq (buf : List U8) : get_u64b buf = getGen .big 8 buf := by
  match buf with
  | [] | [_] | [_, _] | [_, _, _] | [_, _, _, _] | [_, _, _, _, _] | [_, _, _, _, _, _]
  | [_, _, _, _, _, _, _] => rfl
  | a :: b :: c :: d :: e :: f :: g :: h :: t => simp [get_u64b, getGen, rassert, idx]

/-- What a setter does, whatever the error reason on a short buffer. -/
theorem accessor_put_spec (a : Accessor) (ha : a ∈ accessors) (buf : List U8)
    (v : BitVec (8 * a.bytes)) (h : a.bytes ≤ buf.length) :
    a.put buf v = .ok ((match a.order with
      | .little => toLe a.bytes v | .big => toBe a.bytes v) ++ buf.drop a.bytes) := by
  have one : ∀ (v : BitVec 8), setFirst buf v = .ok (toLe 1 v ++ buf.drop 1) ∨ buf.length < 1 := by
    intro v
    match buf with
    | [] => right; simp
    | x :: t => left; simp [setFirst, toLe]
  simp only [accessors, List.mem_cons, List.not_mem_nil, or_false] at ha
  rcases ha with rfl | rfl | rfl | rfl | rfl | rfl | rfl | rfl | rfl | rfl | rfl | rfl | rfl | rfl
    | rfl | rfl | rfl | rfl
  case inl =>
    rcases one v with h' | h'
    · exact h'
    · simp at h; omega
  case inr.inl =>
    rcases one v with h' | h'
    · exact h'
    · simp at h; omega
  all_goals
    simp only at h v ⊢
    simp [put_i16l, put_i16b, put_i32l, put_i32b, put_i64l, put_i64b, put_f32l, put_f32b, put_f64l,
      put_f64b, put_u16l, put_u16b, put_u32l, put_u32b, put_u64l, put_u64b, write_bytes_le,
      write_bytes_be, copyToStart, h]

theorem accessor_put_err (a : Accessor) (ha : a ∈ accessors) (buf : List U8)
    (v : BitVec (8 * a.bytes)) (h : ¬ a.bytes ≤ buf.length) : ∃ e, a.put buf v = .error e := by
  simp only [accessors, List.mem_cons, List.not_mem_nil, or_false] at ha
  rcases ha with rfl | rfl | rfl | rfl | rfl | rfl | rfl | rfl | rfl | rfl | rfl | rfl | rfl | rfl
    | rfl | rfl | rfl | rfl
  case inl =>
    match buf with
    | [] => exact ⟨.index, rfl⟩
    | _ :: _ => simp at h
  case inr.inl =>
    match buf with
    | [] => exact ⟨.index, rfl⟩
    | _ :: _ => simp at h
  all_goals
    simp only at h v ⊢
    refine ⟨.slice, ?_⟩
    simp [put_i16l, put_i16b, put_i32l, put_i32b, put_i64l, put_i64b, put_f32l, put_f32b, put_f64l,
      put_f64b, put_u16l, put_u16b, put_u32l, put_u32b, put_u64l, put_u64b, write_bytes_le,
      write_bytes_be, copyToStart, h]

theorem accessor_get_eq (a : Accessor) (ha : a ∈ accessors) (buf : List U8) :
    a.get buf = getGen a.order a.bytes buf := by
  simp only [accessors, List.mem_cons, List.not_mem_nil, or_false] at ha
  rcases ha with rfl | rfl | rfl | rfl | rfl | rfl | rfl | rfl | rfl | rfl | rfl | rfl | rfl | rfl
    | rfl | rfl | rfl | rfl
  · exact get_u8_eq buf
  · exact get_u8_eq buf
  · exact get_u16l_eq buf
  · exact get_u16b_eq buf
  · exact get_u32l_eq buf
  · exact get_u32b_eq buf
  · exact get_u64l_eq buf
  · exact get_u64b_eq buf
  · exact get_u16l_eq buf
  · exact get_u16b_eq buf
  · exact get_u32l_eq buf
  · exact get_u32b_eq buf
  · exact get_u64l_eq buf
  · exact get_u64b_eq buf
  · exact get_u32l_eq buf
  · exact get_u32b_eq buf
  · exact get_u64l_eq buf
  · exact get_u64b_eq buf

end Verif.Bytes
