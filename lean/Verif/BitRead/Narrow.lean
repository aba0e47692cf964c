import Verif.BitRead.Release

/-!
# C123: the bit readers on targets with any width of `usize`

Positions are `usize`: `Overflow.lean` and `Release.lean` take 64 bits. Here the functions of `Release.lean` over `b`
bits, with and without overflow checks.
-/

namespace Verif.BitRead
open Verif Verif.Bytes Verif.Data

/-- The operators on a target whose `usize` has `b` bits, with or without overflow checks. -/
def narrowOps (b : Nat) (checks : Bool) : Ops where
  add x y := if x + y < 2 ^ b then .ok (x + y) else if checks then .error .overflow else .ok ((x + y) % 2 ^ b)
  sub x y := if y ≤ x then .ok (x - y) else if checks then .error .overflow else .ok (x + 2 ^ b - y)
  mul x y := if x * y < 2 ^ b then .ok (x * y) else if checks then .error .overflow else .ok (x * y % 2 ^ b)
  sub32 x y := if y ≤ x then .ok (x - y) else if checks then .error .overflow else .ok (x + 2 ^ 32 - y)
  shl x n := if n < 64 then .ok (x <<< n) else if checks then .error .shift else .ok (x <<< (n % 64))

/-- With 64 bits these are the two builds of `Release.lean`. -/
theorem narrowOps_64 : narrowOps 64 true = checkedOps ∧ narrowOps 64 false = wrappingOps := by
  constructor
  · simp only [narrowOps, checkedOps, Ops.mk.injEq]
    refine ⟨?_, ?_, ?_, ?_, ?_⟩ <;> funext x y
    · simp [uadd]
    · simp [usub]
    · simp [umul]
    · simp [usub]
    · simp [shlPanic]
  · simp only [narrowOps, wrappingOps, Ops.mk.injEq]
    refine ⟨?_, ?_, ?_, ?_, ?_⟩ <;> funext x y
    · split
      · rw [Nat.mod_eq_of_lt (by assumption)]
      · rfl
    · split <;> rfl
    · split
      · rw [Nat.mod_eq_of_lt (by assumption)]
      · rfl
    · split <;> rfl
    · split
      · rw [Nat.mod_eq_of_lt (by assumption)]
      · rfl

/-- Operators that are exact as long as nothing exceeds `b` bits. -/
structure Ops.Exact (o : Ops) (b : Nat) : Prop where
  add : ∀ x y, x + y < 2 ^ b → o.add x y = .ok (x + y)
  sub : ∀ x y, y ≤ x → o.sub x y = .ok (x - y)
  mul : ∀ x y, x * y < 2 ^ b → o.mul x y = .ok (x * y)
  sub32 : ∀ x y, y ≤ x → o.sub32 x y = .ok (x - y)
  shl : ∀ x n, n < 64 → o.shl x n = .ok (x <<< n)

theorem narrow_exact (b : Nat) (checks : Bool) : (narrowOps b checks).Exact b where
  add x y h := by simp only [narrowOps, h, if_true]
  sub x y h := by simp only [narrowOps, h, if_true]
  mul x y h := by simp only [narrowOps, h, if_true]
  sub32 x y h := by simp only [narrowOps, h, if_true]
  shl x y h := by simp only [narrowOps, h, if_true]

theorem Upto.bind' {a b : Rust α} {f g : α → Rust β} (h : Upto a b) (k : ∀ x, a = .ok x → Upto (f x) (g x)) :
    Upto (a >>= f) (b >>= g) := by
  intro y hy
  cases ha : a with
  | error _ => rw [ha] at hy; exact nomatch hy
  | ok x =>
    rw [h x ha]
    rw [ha] at hy
    exact k x ha y hy

/-- A skip by a `usize`. -/
def Usize (b : Nat) : Op → Prop
  | .skip n => n < 2 ^ b
  | _ => True

instance (b : Nat) (op : Op) : Decidable (Usize b op) := by
  cases op <;> unfold Usize <;> infer_instance

section
variable {o : Ops} {b : Nat} (ho : o.Exact b)
include ho

theorem exact_sub (x y : Nat) : Upto (usub x y) (o.sub x y) := by
  intro v h
  unfold usub at h
  split at h
  · cases h; exact ho.sub _ _ (by assumption)
  · exact nomatch h

theorem exact_sub32 (x y : Nat) : Upto (usub x y) (o.sub32 x y) := by
  intro v h
  unfold usub at h
  split at h
  · cases h; exact ho.sub32 _ _ (by assumption)
  · exact nomatch h

theorem exact_shl (x : BitVec 64) (n : Nat) : Upto (shlPanic x n) (o.shl x n) := by
  intro v h
  unfold shlPanic at h
  split at h
  · cases h; exact ho.shl _ _ (by assumption)
  · exact nomatch h

theorem exact_getVal (e : Endian) (r : Reader) (n : Nat) : Upto (getVal e r n) (o.getVal e r n) := by
  unfold getVal Ops.getVal
  refine Upto.bind ?_ fun _ => Upto.refl _
  cases e with
  | le => exact Upto.refl _
  | be => exact Upto.bind (exact_sub32 ho _ _) fun _ => Upto.refl _

theorem exact_mergeVal (e : Endian) (m l : BitVec 64) (x y : Nat) : Upto (mergeVal e m l x y) (o.mergeVal e m l x y) := by
  cases e with
  | le => exact Upto.bind (exact_shl ho _ _) fun _ => Upto.refl _
  | be => exact Upto.refl _

theorem exact_buildCache (e : Endian) (c v : BitVec 64) (n : Nat) : Upto (buildCache e c v n) (o.buildCache e c v n) := by
  cases e with
  | le => exact Upto.bind (exact_shl ho _ _) fun _ => Upto.refl _
  | be => exact Upto.bind (exact_sub ho _ _) fun _ => Upto.bind (exact_shl ho _ _) fun _ => Upto.refl _

theorem exact_canRefill (r : Reader) (h : r.index + 8 < 2 ^ b) : o.canRefill r = .ok (canRefill r) := by
  simp only [Ops.canRefill, ho.add _ _ h, ok_bind, pure_eq_ok, canRefill]

theorem exact_refill64 (e : Endian) (r : Reader) (h : r.index + 8 < 2 ^ b) : Upto (refill64 e r) (o.refill64 e r) := by
  simp only [Ops.refill64, exact_canRefill ho r h, ok_bind, ho.add _ _ h]
  exact Upto.refl _

theorem exact_refill32 (e : Endian) (r : Reader) (h : r.index + 8 < 2 ^ b) (hl : r.left + 32 < 2 ^ b) :
    Upto (refill32 e r) (o.refill32 e r) := by
  have h4 : r.index + 4 < 2 ^ b := by omega
  simp only [Ops.refill32, refill32, exact_canRefill ho r h, ok_bind, ho.add _ _ h4, ho.add _ _ hl]
  refine Upto.ite (Upto.refl _) (Upto.bind (Upto.refl _) fun _ => Upto.bind (exact_buildCache ho _ _ _ _) fun _ => Upto.refl _)

theorem exact_get_bit (e : Endian) (r : Reader) (h : r.index + 8 < 2 ^ b) : Upto (get_bit e r) (o.get_bit e r) :=
  Upto.bind (Upto.ite (exact_refill64 ho e r h) (Upto.refl _)) fun _ =>
    Upto.bind (exact_getVal ho _ _ _) fun _ => Upto.refl _

theorem exact_get_bits_32 (e : Endian) (r : Reader) (n : Nat) (h : r.index + 8 < 2 ^ b) (hl : r.left + 32 < 2 ^ b) :
    Upto (get_bits_32 e r n) (o.get_bits_32 e r n) :=
  Upto.ite (Upto.refl _) (Upto.bind (Upto.ite (exact_refill32 ho e r h hl) (Upto.refl _)) fun _ =>
    Upto.bind (exact_getVal ho _ _ _) fun _ => Upto.refl _)

theorem exact_get_bits_64 (e : Endian) (r : Reader) (n : Nat) (h : r.index + 8 < 2 ^ b) :
    Upto (get_bits_64 e r n) (o.get_bits_64 e r n) := by
  unfold get_bits_64 Ops.get_bits_64
  refine Upto.ite (Upto.refl _) ?_
  have last : ∀ (r : Reader) (n left : Nat) (ret : BitVec 64),
      Upto (do let (v, r) ← getVal e r n; return (← mergeVal e v ret left n, r))
        (do let (v, r) ← o.getVal e r n; return (← o.mergeVal e v ret left n, r)) := fun r n left ret =>
    Upto.bind (exact_getVal ho _ _ _) fun _ => Upto.bind (exact_mergeVal ho _ _ _ _ _) fun _ => Upto.refl _
  by_cases hl : r.left < n
  · simp only [hl, if_true]
    refine Upto.bind' (exact_getVal ho _ _ _) fun x hx => ?_
    refine Upto.bind (exact_refill64 ho e _ ?_) fun _ => last _ _ _ _
    unfold getVal at hx
    cases hp : peekVal e r r.left with
    | error _ => rw [hp] at hx; exact nomatch hx
    | ok v =>
      rw [hp] at hx
      cases hx
      simpa using h
  · simp only [hl, if_false]
    exact last _ _ _ _

theorem exact_skip_bits (e : Endian) (r : Reader) (n : Nat) (h : r.index + n / 8 + 8 < 2 ^ b) (hn : n < 2 ^ b) :
    Upto (skip_bits e r n) (o.skip_bits e r n) := by
  unfold skip_bits Ops.skip_bits
  refine Upto.ite ?_ (Upto.refl _)
  have hd : (n - r.left) / 8 ≤ n / 8 := Nat.div_le_div_right (by omega)
  by_cases h64 : n - r.left > 64
  · have h1 : (n - r.left) / 8 * 8 < 2 ^ b := by omega
    have h2 : r.index + (n - r.left) / 8 < 2 ^ b := by omega
    simp only [h64, if_true, ho.mul _ _ h1, ho.add _ _ h2, ho.sub _ _ (Nat.div_mul_le_self (n - r.left) 8), ok_bind,
      pure_eq_ok]
    exact Upto.bind (exact_refill64 ho e _ (by simp only [skipRem_index]; omega)) fun _ => Upto.refl _
  · simp only [h64, if_false, ok_bind, pure_eq_ok]
    exact Upto.bind (exact_refill64 ho e _ (by simp only [skipRem_index]; omega)) fun _ => Upto.refl _

theorem exact_step (e : Endian) (r : Reader) (op : Op) (hl : r.left ≤ 64) (hB : 128 ≤ 2 ^ b) (hu : Usize b op)
    (h : r.index + jumpOf op + 8 < 2 ^ b) : Upto (step e r op) (o.step e r op) := by
  have h8 : r.index + 8 < 2 ^ b := by omega
  have hl' : r.left + 32 < 2 ^ b := by omega
  cases op with
  | getBit => exact Upto.bind (exact_get_bit ho e r h8) fun _ => Upto.refl _
  | get32 n => exact Upto.bind (exact_get_bits_32 ho e r n h8 hl') fun _ => Upto.refl _
  | get64 n => exact Upto.bind (exact_get_bits_64 ho e r n h8) fun _ => Upto.refl _
  | skip n =>
    simp only [jumpOf] at h
    exact Upto.bind (exact_skip_bits ho e r n (by omega) hu) fun _ => Upto.refl _
  | align =>
    have : r.left &&& 7 = r.left % 8 := Nat.and_two_pow_sub_one_eq_mod r.left 3
    exact Upto.bind (exact_skip_bits ho e r _ (by rw [this]; omega) (by rw [this]; omega)) fun _ => Upto.refl _
  | peekBit =>
    have := exact_get_bit ho e r h8
    simp only [step, peek_bit, Ops.step]
    cases hg : get_bit e r with
    | error _ => exact fun _ h => nomatch h
    | ok v => rw [this v hg]; exact Upto.refl _
  | peek32 n =>
    have := exact_get_bits_32 ho e r n h8 hl'
    simp only [step, peek_bits_32, Ops.step]
    cases hg : get_bits_32 e r n with
    | error _ => exact fun _ h => nomatch h
    | ok v => rw [this v hg]; exact Upto.refl _
  | peek64 n =>
    have := exact_get_bits_64 ho e r n h8
    simp only [step, peek_bits_64, Ops.step]
    cases hg : get_bits_64 e r n with
    | error _ => exact fun _ h => nomatch h
    | ok v => rw [this v hg]; exact Upto.refl _

theorem exact_run {e : Endian} {r : Reader} {c : Cur} (h : Follows e r c) (ops : List Op) (hw : ∀ op ∈ ops, widthOk op)
    (hB : 128 ≤ 2 ^ b) (hu : ∀ op ∈ ops, Usize b op) (hb : max r.buffer.length c.idx + skipped ops + 8 < 2 ^ b) :
    Upto (run e r ops) (o.run e r ops) ∧
      (Cur.run e r.buffer c ops).2.idx ≤ max r.buffer.length c.idx + skipped ops := by
  induction ops generalizing r c with
  | nil => exact ⟨Upto.refl _, by simp only [Cur.run]; omega⟩
  | cons op ops ih =>
    obtain ⟨r1, a1, a2, a3⟩ := step_follows h op (hw op (by simp))
    have hn := Cur.next_idx r.buffer.length c op
    simp only [skipped] at hb ⊢
    obtain ⟨b1, b2⟩ := ih a3 (fun o ho => hw o (by simp [ho])) (fun o ho => hu o (by simp [ho])) (by rw [a2]; omega)
    rw [a2] at b2
    have hs := exact_step ho e r op h.left.2.2 hB (hu op (by simp)) (by rw [h.idx]; omega)
    refine ⟨?_, ?_⟩
    · simp only [run, Ops.run, a1, hs _ a1, ok_bind]
      exact Upto.bind b1 fun _ => Upto.refl _
    · simp only [Cur.run]; omega

end

/-- **C123**: on a target with `b` bits, for a buffer that fits into its address space and every history of calls with
widths the functions accept, nothing panics, and results, `consumed` and `available` are those of the unbounded
model. -/
def C123 (b : Nat) (checks : Bool) : Prop :=
  ∀ (e : Endian) (buf : List U8) (ops : List Op), (∀ op ∈ ops, widthOk op) → buf.length < 2 ^ b →
    ∃ r0 vs r, (narrowOps b checks).new e buf = .ok r0 ∧ (narrowOps b checks).run e r0 ops = .ok (vs, r) ∧
      new e buf = .ok r0 ∧ run e r0 ops = .ok (vs, r) ∧
      Upto (consumed r) ((narrowOps b checks).consumed r) ∧ Upto (available r) ((narrowOps b checks).available r)

theorem mod_eq_of {x y w k : Nat} (h : x = y + w * k) (hy : y < w) : x % w = y := by
  rw [h, Nat.add_mul_mod_self_left, Nat.mod_eq_of_lt hy]

/-- What `consumed` and `available` return in a state with `left` bits of `index` bytes. -/
theorem narrow_consumed (b : Nat) (checks : Bool) (r : Reader) (h : r.left ≤ r.index * 8) (hl : r.left < 2 ^ b) :
    (narrowOps b checks).consumed r = if checks ∧ 2 ^ b ≤ r.index * 8 then .error .overflow
      else .ok ((r.index * 8 - r.left) % 2 ^ b) := by
  simp only [Ops.consumed, narrowOps]
  by_cases hm : r.index * 8 < 2 ^ b
  · rw [if_pos hm, if_neg (by omega)]
    simp only [ok_bind]
    rw [if_pos h, Nat.mod_eq_of_lt (by omega)]
  · rw [if_neg hm]
    cases checks with
    | true => simp only [if_true, true_and]; rw [if_pos (by omega)]; rfl
    | false =>
      simp only [Bool.false_eq_true, if_false, ok_bind, false_and]
      have h1 := Nat.mod_lt (r.index * 8) (show 2 ^ b > 0 by omega)
      have h2 := Nat.div_add_mod (r.index * 8) (2 ^ b)
      have h3 : 1 ≤ r.index * 8 / 2 ^ b := (Nat.le_div_iff_mul_le (by omega)).mpr (by omega)
      split
      · rw [mod_eq_of (x := r.index * 8 - r.left) (k := r.index * 8 / 2 ^ b) (y := r.index * 8 % 2 ^ b - r.left) (by omega) (by omega)]
      · obtain ⟨k, hk⟩ : ∃ k, r.index * 8 / 2 ^ b = k + 1 := ⟨_, (Nat.sub_add_cancel h3).symm⟩
        rw [hk, Nat.mul_succ] at h2
        rw [mod_eq_of (x := r.index * 8 - r.left) (k := k) (y := r.index * 8 % 2 ^ b + 2 ^ b - r.left) (by omega) (by omega)]

theorem narrow_available (b : Nat) (checks : Bool) (r : Reader) :
    (narrowOps b checks).available r =
      if checks ∧ ¬ (r.index ≤ r.buffer.length ∧ (r.buffer.length - r.index) * 8 + r.left < 2 ^ b) then .error .overflow
      else .ok (((r.buffer.length + 2 ^ b - r.index) * 8 + r.left) % 2 ^ b) := by
  have add : ∀ x y, (narrowOps b checks).add x y = if checks ∧ ¬ x + y < 2 ^ b then .error .overflow else .ok ((x + y) % 2 ^ b) := by
    intro x y
    simp only [narrowOps]
    by_cases h : x + y < 2 ^ b
    · rw [if_pos h, if_neg (fun g => g.2 h), Nat.mod_eq_of_lt h]
    · rw [if_neg h]; cases checks <;> simp [h]
  have mul : ∀ x y, (narrowOps b checks).mul x y = if checks ∧ ¬ x * y < 2 ^ b then .error .overflow else .ok (x * y % 2 ^ b) := by
    intro x y
    simp only [narrowOps]
    by_cases h : x * y < 2 ^ b
    · rw [if_pos h, if_neg (fun g => g.2 h), Nat.mod_eq_of_lt h]
    · rw [if_neg h]; cases checks <;> simp [h]
  have tail : ∀ d, (do (narrowOps b checks).add (← (narrowOps b checks).mul d 8) r.left) =
      if checks ∧ ¬ d * 8 + r.left < 2 ^ b then .error .overflow else .ok ((d * 8 + r.left) % 2 ^ b) := by
    intro d
    rw [mul]
    by_cases h : checks ∧ ¬ d * 8 < 2 ^ b
    · rw [if_pos h, if_pos ⟨h.1, by omega⟩]; rfl
    · rw [if_neg h]
      simp only [ok_bind, add]
      cases checks with
      | true =>
        have h8 : d * 8 < 2 ^ b := by simpa using h
        rw [Nat.mod_eq_of_lt h8]
      | false => simp only [Bool.false_eq_true, false_and, if_false, Nat.mod_add_mod]
  unfold Ops.available
  by_cases hc : r.index ≤ r.buffer.length
  · have hs : (narrowOps b checks).sub r.buffer.length r.index = .ok (r.buffer.length - r.index) := by
      simp only [narrowOps, hc, if_true]
    rw [hs]
    simp only [ok_bind, tail, hc, true_and]
    rw [show (r.buffer.length + 2 ^ b - r.index) * 8 + r.left = (r.buffer.length - r.index) * 8 + r.left + 2 ^ b * 8 by omega,
      Nat.add_mul_mod_self_left]
  · cases checks with
    | true =>
      rw [if_pos ⟨rfl, fun h => hc h.1⟩]
      simp only [narrowOps, hc, if_false, if_true, error_bind]
    | false =>
      have hs : (narrowOps b false).sub r.buffer.length r.index = .ok (r.buffer.length + 2 ^ b - r.index) := by
        simp only [narrowOps, hc, if_false, Bool.false_eq_true]
      rw [hs]
      simp only [ok_bind, tail, Bool.false_eq_true, false_and, if_false]

/-- **C123, partial** For every buffer and skips that amount to less than `2^b - 8` *bytes*: nothing but `consumed` and
`available` panics, and all results are those of the unbounded model. `consumed` and `available` are numbers of bits, and
right modulo `2^b`; with overflow checks they panic exactly if they, or the number of bits loaded, do not fit, or a skip
has gone past the end. Missing: C123 is false of these. -/
theorem c123_bytes_partial (b : Nat) (checks : Bool) (e : Endian) (buf : List U8) (ops : List Op) (h7 : 7 ≤ b)
    (hw : ∀ op ∈ ops, widthOk op) (hu : ∀ op ∈ ops, Usize b op) (hb : buf.length + skipped ops + 8 < 2 ^ b) :
    ∃ r0 vs r, (narrowOps b checks).new e buf = .ok r0 ∧ (narrowOps b checks).run e r0 ops = .ok (vs, r) ∧
      new e buf = .ok r0 ∧ run e r0 ops = .ok (vs, r) ∧ r.buffer = buf ∧ r.left ≤ 64 ∧
      r.index ≤ buf.length + skipped ops ∧
      (narrowOps b checks).consumed r = (if checks ∧ 2 ^ b ≤ r.index * 8 then .error .overflow
        else .ok ((r.index * 8 - r.left) % 2 ^ b)) ∧
      (narrowOps b checks).available r =
        (if checks ∧ ¬ (r.index ≤ buf.length ∧ (buf.length - r.index) * 8 + r.left < 2 ^ b) then .error .overflow
        else .ok (((buf.length + 2 ^ b - r.index) * 8 + r.left) % 2 ^ b)) := by
  have hB : 128 ≤ 2 ^ b := Nat.pow_le_pow_right (n := 2) (by decide) h7
  have ho := narrow_exact b checks
  obtain ⟨r0, h1, h2, h3⟩ := new_follows e buf
  obtain ⟨r, a1, a2, a3⟩ := run_follows h3 ops hw
  have hi : (Cur.start buf.length).idx ≤ buf.length := by
    unfold Cur.start Cur.load
    split
    · simp only; omega
    · simp
  obtain ⟨b1, b2⟩ := exact_run ho h3 ops hw hB hu (by rw [h2]; omega)
  rw [h2] at b2 a2 a3
  have h64 := a3.left.2.2
  have hidx : r.index ≤ buf.length + skipped ops := by rw [a3.idx]; omega
  have hle : r.left ≤ r.index * 8 := by
    have h6 := a3.left
    have h7 := a3.lim_idx
    have h8 := a3.idx
    unfold Cur.left at h6
    omega
  have hav := narrow_available b checks r
  rw [a2] at hav
  exact ⟨r0, _, r, exact_refill64 ho e _ (by simp only; omega) _ h1, b1 _ a1, h1, a1, a2, h64, hidx,
    narrow_consumed b checks r hle (by omega), hav⟩

/-- With a buffer of nearly the whole address space. -/
example : (∀ op ∈ [Op.get32 7, .skip 1000, .get64 64], widthOk op ∧ Usize 16 op) ∧
    (2 ^ 16 - 134) + skipped [Op.get32 7, .skip 1000, .get64 64] + 8 < 2 ^ 16 := by decide

/-- **C123, partial** C123 for buffers and skips that amount to less than `2^b - 128` bits: 512 MiB on targets with 32
bits, 8 KiB with 16. Missing: longer ones, for which C123 is false. -/
theorem c123_partial (b : Nat) (checks : Bool) (e : Endian) (buf : List U8) (ops : List Op)
    (hw : ∀ op ∈ ops, widthOk op) (hb : 8 * (buf.length + skipped ops) + 128 < 2 ^ b) :
    ∃ r0 vs r, (narrowOps b checks).new e buf = .ok r0 ∧ (narrowOps b checks).run e r0 ops = .ok (vs, r) ∧
      new e buf = .ok r0 ∧ run e r0 ops = .ok (vs, r) ∧
      Upto (consumed r) ((narrowOps b checks).consumed r) ∧ Upto (available r) ((narrowOps b checks).available r) := by
  have hu : ∀ op ∈ ops, Usize b op := by
    clear hw
    induction ops with
    | nil => simp
    | cons op ops ih =>
      simp only [skipped] at hb
      intro o ho
      rcases List.mem_cons.mp ho with rfl | ho
      · cases o <;> simp only [Usize]
        simp only [jumpOf] at hb
        omega
      · exact ih (by omega) o ho
  have h7 : 7 ≤ b := by
    rcases Nat.lt_or_ge b 7 with h | h
    · have : 2 ^ b ≤ 2 ^ 6 := Nat.pow_le_pow_right (by decide) (by omega)
      omega
    · exact h
  obtain ⟨r0, vs, r, a1, a2, a3, a4, rfl, a5, a6, a7, a8⟩ := c123_bytes_partial b checks e buf ops h7 hw hu (by omega)
  refine ⟨r0, vs, r, a1, a2, a3, a4, ?_, ?_⟩
  · intro x hx
    rw [a7, if_neg (by omega)]
    unfold consumed usub at hx
    split at hx
    · rw [← hx, Nat.mod_eq_of_lt (by omega)]
    · exact nomatch hx
  · intro x hx
    unfold available usub at hx
    split at hx
    · rename_i hi
      have h8 : (r.buffer.length - r.index) * 8 + r.left < 2 ^ b := by omega
      rw [a8, if_neg (fun h => h.2 ⟨hi, h8⟩), ← hx]
      rw [show (r.buffer.length + 2 ^ b - r.index) * 8 + r.left = (r.buffer.length - r.index) * 8 + r.left + 2 ^ b * 8 by omega,
        Nat.add_mul_mod_self_left, Nat.mod_eq_of_lt h8]
      rfl
    · exact nomatch hx

example : (∀ op ∈ [Op.get32 7, .skip 1000, .get64 64], widthOk op) ∧
    8 * (sample.length + skipped [Op.get32 7, .skip 1000, .get64 64]) + 128 < 2 ^ 16 := by decide

/-- **C123 fails** for `usize` of 32 bits and every buffer of at least 512 MiB: `available` of the new reader panics in
builds with overflow checks; in builds without, it is too small by a multiple of 512 MiB. -/
theorem c123_available_fails (e : Endian) (buf : List U8) (h1 : 2 ^ 29 ≤ buf.length) (h2 : buf.length < 2 ^ 32) :
    ∃ r0, new e buf = .ok r0 ∧ (∀ c, (narrowOps 32 c).new e buf = .ok r0) ∧ available r0 = .ok (8 * buf.length) ∧
      (narrowOps 32 true).available r0 = .error .overflow ∧
      (narrowOps 32 false).available r0 = .ok (8 * buf.length % 2 ^ 32) := by
  obtain ⟨v, hv⟩ := (fill_ok e { buffer := buf, index := 0, cache := 0, left := 0 } (by simp only; omega)).2
  have hn : new e buf = .ok ⟨buf, 8, v, 64⟩ := by
    simp only [new, refill64, canRefill, hv, ok_bind, pure_eq_ok]
    rw [show (decide (0 + 8 ≤ buf.length)) = true from decide_eq_true (by omega)]
    rfl
  refine ⟨⟨buf, 8, v, 64⟩, hn, fun c => exact_refill64 (narrow_exact 32 c) e _ (by simp only; omega) _ hn, ?_, ?_, ?_⟩
  · simp only [available, usub_ok (show 8 ≤ buf.length by omega), ok_bind, pure_eq_ok]
    congr 1; omega
  · have h8 : 8 ≤ buf.length := by omega
    simp only [Ops.available, narrowOps, h8, if_true, ok_bind]
    by_cases hm : (buf.length - 8) * 8 < 2 ^ 32
    · simp only [hm, if_true, ok_bind]
      rw [if_neg (by omega)]
    · simp only [hm, if_false]
      rfl
  · have h8 : 8 ≤ buf.length := by omega
    simp only [Ops.available, narrowOps, h8, if_true, ok_bind]
    by_cases hm : (buf.length - 8) * 8 < 2 ^ 32
    · simp only [hm, if_true, ok_bind, Bool.false_eq_true, if_false]
      rw [if_neg (by omega)]
      congr 1; omega
    · simp only [hm, if_false, Bool.false_eq_true, ok_bind]
      by_cases hk : (buf.length - 8) * 8 % 2 ^ 32 + 64 < 2 ^ 32
      · rw [if_pos hk]
        congr 1; omega
      · rw [if_neg hk]
        congr 1; omega

theorem c123_fails (c : Bool) : ¬ C123 32 c := by
  intro h
  obtain ⟨r0, vs, r, a1, a2, a3, a4, _, a6⟩ := h .le (List.replicate (2 ^ 29) 0) [] (by simp)
    (by rw [List.length_replicate]; decide)
  obtain ⟨r1, b1, _, b3, b4, b5⟩ := c123_available_fails .le (List.replicate (2 ^ 29) 0)
    (by rw [List.length_replicate]; decide) (by rw [List.length_replicate]; decide)
  rw [b1] at a3
  cases a3
  cases a4
  have := a6 _ b3
  cases c
  · rw [b5, List.length_replicate] at this
    exact absurd (Except.ok.inj this) (by decide)
  · rw [b4] at this
    exact nomatch this

end Verif.BitRead
