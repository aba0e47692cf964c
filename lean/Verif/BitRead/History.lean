import Verif.BitRead.Sync

/-! # Helper lemmas: histories of calls -/

namespace Verif.BitRead
open Verif Verif.Bytes

theorem run_append (e : Endian) (r : Reader) (a b : List Op) :
    run e r (a ++ b) = (do
      let (va, r) ← run e r a
      let (vb, r) ← run e r b
      return (va ++ vb, r)) := by
  induction a generalizing r with
  | nil => simp only [List.nil_append, run, ok_bind, pure_eq_ok]
           cases run e r b <;> rfl
  | cons op a ih =>
    simp only [List.cons_append, run]
    cases h : step e r op with
    | error x => rfl
    | ok x =>
      obtain ⟨v, r1⟩ := x
      simp only [ok_bind, ih]
      cases run e r1 a with
      | error x => rfl
      | ok x =>
        obtain ⟨va, r2⟩ := x
        simp only [ok_bind, pure_eq_ok]
        cases run e r2 b with
        | error x => rfl
        | ok x => rfl

theorem specRun_append (e : Endian) (buf : List U8) (p : Nat) (a b : List Op) :
    specRun e buf p (a ++ b) =
      ((specRun e buf p a).1 ++ (specRun e buf (specRun e buf p a).2 b).1,
        (specRun e buf (specRun e buf p a).2 b).2) := by
  induction a generalizing p with
  | nil => rfl
  | cons op a ih => simp only [List.cons_append, specRun, ih]

theorem within_append (e : Endian) (buf : List U8) (p : Nat) (a b : List Op) :
    within buf p (a ++ b) ↔ within buf p a ∧ within buf (specRun e buf p a).2 b := by
  induction a generalizing p with
  | nil => simp [within, specRun]
  | cons op a ih => simp only [List.cons_append, within, ih, specRun, and_assoc]

/-- One call inside the data. -/
theorem step_within {e r p} (hs : Synced e r p) (op : Op) (hw : widthOk op)
    (hr : reach p op + 64 ≤ 8 * r.buffer.length) :
    ∃ r', step e r op = .ok (specVal e r.buffer p op, r') ∧ r'.buffer = r.buffer ∧
      Synced e r' (nextPos p op) := by
  have hp := hs.pos
  cases op with
  | getBit =>
    obtain ⟨b, r', h1, h2, h3, h4, h5⟩ := getBit_spec hs
    simp only [reach] at hr
    have hlim : p + 1 ≤ r'.index * 8 := by
      have := h4.pos
      simp only [canRefill, decide_eq_true_eq] at h3
      split at h3 <;> omega
    refine ⟨r', ?_, h2, ?_⟩
    · simp only [step, h1, ok_bind, pure_eq_ok, specVal, valueAt_one, h5, lbit_lt (show p < r'.index * 8 by omega)]
    · rwa [Nat.min_eq_left hlim] at h4
  | get32 n =>
    obtain ⟨v, r', h1, h2, h3, h4, h5⟩ := get32_spec hs (n := n) hw
    simp only [reach] at hr
    simp only [widthOk] at hw
    have hlim : p + n ≤ r'.index * 8 := by
      simp only [canRefill, decide_eq_true_eq] at h3
      split at h3 <;> omega
    refine ⟨r', ?_, h2, ?_⟩
    · simp only [step, h1, ok_bind, pure_eq_ok, specVal, h5.toNat_full hlim]
    · rwa [Nat.min_eq_left hlim] at h4
  | get64 n =>
    obtain ⟨v, r', h1, h2, h3, h4, h5⟩ := get64_spec hs (n := n) hw
    simp only [reach] at hr
    simp only [widthOk] at hw
    have hlim : p + n ≤ r'.index * 8 := by
      simp only [canRefill, decide_eq_true_eq] at h3
      split at h3 <;> omega
    refine ⟨r', ?_, h2, ?_⟩
    · simp only [step, h1, ok_bind, pure_eq_ok, specVal, h5.toNat_full hlim]
    · rwa [Nat.min_eq_left hlim] at h4
  | skip n =>
    obtain ⟨r', h1, h2, h3⟩ := skip_within hs (n := n) hr
    exact ⟨r', by simp only [step, h1, ok_bind, pure_eq_ok, specVal], h2, h3⟩
  | align =>
    obtain ⟨r', h1, h2, _, h3⟩ := align_spec hs
    exact ⟨r', by simp only [step, h1, ok_bind, pure_eq_ok, specVal], h2, h3⟩
  | peekBit =>
    obtain ⟨b, r', h1, h2, h3, h4, h5⟩ := getBit_spec hs
    simp only [reach] at hr
    have hlim : p + 1 ≤ r'.index * 8 := by
      simp only [canRefill, decide_eq_true_eq] at h3
      split at h3 <;> omega
    refine ⟨r, ?_, rfl, hs⟩
    simp only [step, peek_bit, h1, ok_bind, pure_eq_ok, specVal, valueAt_one, h5, lbit_lt (show p < r'.index * 8 by omega)]
  | peek32 n =>
    obtain ⟨v, r', h1, h2, h3, h4, h5⟩ := get32_spec hs (n := n) hw
    simp only [reach] at hr
    simp only [widthOk] at hw
    have hlim : p + n ≤ r'.index * 8 := by
      simp only [canRefill, decide_eq_true_eq] at h3
      split at h3 <;> omega
    refine ⟨r, ?_, rfl, hs⟩
    simp only [step, peek_bits_32, h1, ok_bind, pure_eq_ok, specVal, h5.toNat_full hlim]
  | peek64 n =>
    obtain ⟨v, r', h1, h2, h3, h4, h5⟩ := get64_spec hs (n := n) hw
    simp only [reach] at hr
    simp only [widthOk] at hw
    have hlim : p + n ≤ r'.index * 8 := by
      simp only [canRefill, decide_eq_true_eq] at h3
      split at h3 <;> omega
    refine ⟨r, ?_, rfl, hs⟩
    simp only [step, peek_bits_64, h1, ok_bind, pure_eq_ok, specVal, h5.toNat_full hlim]

/-- A history inside the data. -/
theorem run_within {e r p} (hs : Synced e r p) (ops : List Op) (hw : within r.buffer p ops) :
    ∃ r', run e r ops = .ok ((specRun e r.buffer p ops).1, r') ∧ r'.buffer = r.buffer ∧
      Synced e r' (specRun e r.buffer p ops).2 := by
  induction ops generalizing r p with
  | nil => exact ⟨r, rfl, rfl, hs⟩
  | cons op ops ih =>
    obtain ⟨w1, w2, w3⟩ := hw
    obtain ⟨r1, h1, h2, h3⟩ := step_within hs op w1 w2
    obtain ⟨r2, h4, h5, h6⟩ := ih h3 (by rw [h2]; exact w3)
    rw [h2] at h4 h6
    exact ⟨r2, by simp only [run, h1, ok_bind, h4, pure_eq_ok, specRun], h5.trans h2, h6⟩

/-! ### Histories without any bound -/

/-- Number of bits a call returns. -/
def opBits : Op → Nat
  | .getBit | .peekBit => 1
  | .get32 n | .get64 n | .peek32 n | .peek64 n => n
  | .skip _ | .align => 0

/-- Bits of the result at reading order index `left` and later are 0. -/
def ZeroTail (e : Endian) (n left : Nat) (v : BitVec w) : Prop :=
  ∀ i, i < n → left ≤ ridx e n i → v.getLsbD i = false

theorem toNat_lt_of_bits {w n : Nat} (v : BitVec w) (h : ∀ i, n ≤ i → v.getLsbD i = false) :
    v.toNat < 2 ^ n := by
  apply Nat.lt_pow_two_of_testBit
  intro i hi
  exact h i hi

theorem get32_weak {e r} (hw : Weak e r) {n : Nat} (hn : n ≤ 32) :
    ∃ v r', get_bits_32 e r n = .ok (v, r') ∧ r'.buffer = r.buffer ∧ Weak e r' ∧
      v.toNat < 2 ^ n ∧ (canRefill r = false → ZeroTail e n r.left v) := by
  by_cases h0 : n = 0
  · subst h0
    exact ⟨0, r, by simp [get_bits_32], rfl, hw, by simp, fun _ _ hi _ => by omega⟩
  obtain ⟨r1, hr1, hb, hw1, hc⟩ : ∃ r1, (if r.left ≤ n then refill32 e r else .ok r) = .ok r1 ∧
      r1.buffer = r.buffer ∧ Weak e r1 ∧ (canRefill r = false → r1 = r) := by
    by_cases h1 : r.left ≤ n
    · by_cases h2 : canRefill r = true
      · obtain ⟨r', a1, a2, a3, _, _, a4⟩ := refill32_yes e r h2 (by omega)
        exact ⟨r', by simp [h1, a1], a2, a4 hw, by simp [h2]⟩
      · exact ⟨r, by simp [h1, refill32_no e r (by simpa using h2)], rfl, hw, fun _ => rfl⟩
    · exact ⟨r, by simp [h1], rfl, hw, fun _ => rfl⟩
  obtain ⟨v, hv1, hv2⟩ := getVal_spec e r1 (n := n) (by omega)
  refine ⟨v.setWidth 32, skipRem e r1 n, ?_, by simp [hb], hw1.skipRem (by omega), ?_, ?_⟩
  · unfold get_bits_32
    rw [if_neg h0, hr1]
    simp only [ok_bind, hv1, pure_eq_ok]
  · apply toNat_lt_of_bits
    intro i hi
    rw [BitVec.getLsbD_setWidth, hv2]
    simp [show ¬ i < n by omega]
  · intro h i hi hl
    rw [BitVec.getLsbD_setWidth, hv2, hc h, hw.zero _ hl]
    simp

theorem mergeVal_lt {e : Endian} {v ret : BitVec 64} {left n : Nat}
    (hv : ∀ i, n ≤ i → v.getLsbD i = false) (hr : ∀ i, left ≤ i → ret.getLsbD i = false)
    (hl : left < 64) (hn : n ≤ 64) :
    ∃ m, mergeVal e v ret left n = .ok m ∧ (∀ i, n + left ≤ i → m.getLsbD i = false) ∧
      (v = 0 → ZeroTail e (n + left) left m) := by
  cases e
  · refine ⟨v <<< left ||| ret, by simp [mergeVal, shlPanic, hl], ?_, ?_⟩
    · intro i hi
      rw [BitVec.getLsbD_or, BitVec.getLsbD_shiftLeft, hv _ (by omega), hr _ (by omega)]
      simp
    · intro h i _ hi
      simp only [ridx] at hi
      rw [h, BitVec.getLsbD_or, hr _ hi]
      simp
  · refine ⟨v ||| ret <<< n, by simp [mergeVal, checkedShl_small _ hn], ?_, ?_⟩
    · intro i hi
      rw [BitVec.getLsbD_or, BitVec.getLsbD_shiftLeft, hv _ (by omega), hr _ (by omega)]
      simp
    · intro h i hin hi
      simp only [ridx] at hi
      rw [h, BitVec.getLsbD_or, BitVec.getLsbD_shiftLeft]
      simp [show i < n by omega]

theorem get64_weak {e r} (hw : Weak e r) {n : Nat} (hn : n ≤ 64) :
    ∃ v r', get_bits_64 e r n = .ok (v, r') ∧ r'.buffer = r.buffer ∧ Weak e r' ∧
      v.toNat < 2 ^ n ∧ (canRefill r = false → ZeroTail e n r.left v) := by
  by_cases h0 : n = 0
  · subst h0
    exact ⟨0, r, by simp [get_bits_64], rfl, hw, by simp, fun _ _ hi _ => by omega⟩
  by_cases h1 : r.left < n
  · obtain ⟨ret, hr1, hr2⟩ := getVal_spec e r (n := r.left) hw.left_le
    have hw0 := hw.skipRem (n := r.left) hw.left_le
    obtain ⟨r1, hf, hb, hw1⟩ := refill64_weak e _ hw0
    obtain ⟨v, hv1, hv2⟩ := getVal_spec e r1 (n := n - r.left) (by omega)
    obtain ⟨m, hm, hm2, hm3⟩ := mergeVal_lt (e := e) (v := v) (ret := ret) (left := r.left)
      (n := n - r.left)
      (fun i hi => by rw [hv2]; simp [show ¬ i < n - r.left by omega])
      (fun i hi => by rw [hr2]; simp [show ¬ i < r.left by omega]) (by omega) (by omega)
    rw [show n - r.left + r.left = n by omega] at hm2 hm3
    refine ⟨m, skipRem e r1 (n - r.left), ?_, by simp [hb], hw1.skipRem (by omega), ?_, ?_⟩
    · simp only [get_bits_64, if_neg h0, if_pos h1, hr1, ok_bind, hf, hv1, hm, pure_eq_ok]
    · exact toNat_lt_of_bits m hm2
    · intro hc
      apply hm3
      rw [refill64_no e _ (by simpa [canRefill] using hc)] at hf
      cases hf
      apply BitVec.eq_of_getLsbD_eq
      intro i _
      rw [hv2, hw0.zero _ (by simp)]
      simp
  · obtain ⟨v, hv1, hv2⟩ := getVal_spec e r (n := n) hn
    have hm : mergeVal e v 0 0 n = .ok v := by
      cases e
      · simp [mergeVal, shlPanic]
      · simp [mergeVal, checkedShl_small _ hn]
    refine ⟨v, skipRem e r n, ?_, by simp, hw.skipRem hn, ?_, ?_⟩
    · simp only [get_bits_64, if_neg h0, if_neg h1, ok_bind, hv1, hm, pure_eq_ok]
    · apply toNat_lt_of_bits
      intro i hi
      rw [hv2]; simp [show ¬ i < n by omega]
    · intro _ i _ hl
      rw [hv2, hw.zero _ hl]; simp

theorem getBit_weak {e r} (hw : Weak e r) :
    ∃ b r', get_bit e r = .ok (b, r') ∧ r'.buffer = r.buffer ∧ Weak e r' ∧
      (canRefill r = false → r.left = 0 → b = false) := by
  obtain ⟨r1, hr1, hb, hw1, hc⟩ : ∃ r1, (if r.left = 0 then refill64 e r else .ok r) = .ok r1 ∧
      r1.buffer = r.buffer ∧ Weak e r1 ∧ (canRefill r = false → r1 = r) := by
    by_cases h1 : r.left = 0
    · by_cases h2 : canRefill r = true
      · obtain ⟨r', a1, a2, _, _, a3⟩ := refill64_yes e r h2
        exact ⟨r', by simp [h1, a1], a2, a3.weak, by simp [h2]⟩
      · exact ⟨r, by simp [h1, refill64_no e r (by simpa using h2)], rfl, hw, fun _ => rfl⟩
    · exact ⟨r, by simp [h1], rfl, hw, fun _ => rfl⟩
  obtain ⟨v, hv1, hv2⟩ := getVal_spec e r1 (n := 1) (by omega)
  refine ⟨v != 0, skipRem e r1 1, ?_, by simp [hb], hw1.skipRem (by omega), ?_⟩
  · unfold get_bit
    rw [hr1]
    simp only [ok_bind, hv1, pure_eq_ok]
  · intro h hl
    have : v = 0 := by
      apply BitVec.eq_of_getLsbD_eq
      intro i _
      rw [hv2, hc h, hw.zero _ (by omega)]; simp
    simp [this]

theorem skip_weak {e r} (hw : Weak e r) (n : Nat) :
    ∃ r', skip_bits e r n = .ok r' ∧ r'.buffer = r.buffer ∧ Weak e r' := by
  have hl := hw.left_le
  have hi := hw.left_idx
  by_cases h : r.left < n
  · by_cases h64 : n - r.left > 64
    · have hw1 : Weak e { r with index := r.index + (n - r.left) / 8 } :=
        ⟨hl, by simp only; omega, hw.zero⟩
      obtain ⟨r', a1, a2, a3⟩ := refill64_weak e _
        (hw1.skipRem (n := n - r.left - (n - r.left) / 8 * 8) (by omega))
      refine ⟨skipRem e r' (n - r.left - (n - r.left) / 8 * 8), ?_, by simp [a2],
        a3.skipRem (by omega)⟩
      simp [skip_bits, h, h64, a1]
    · obtain ⟨r', a1, a2, a3⟩ := refill64_weak e _ (hw.skipRem (n := n - r.left) (by omega))
      refine ⟨skipRem e r' (n - r.left), ?_, by simp [a2], a3.skipRem (by omega)⟩
      simp [skip_bits, h, h64, a1]
  · exact ⟨skipRem e r n, by simp [skip_bits, h], by simp, hw.skipRem (by omega)⟩

theorem step_weak {e r} (hw : Weak e r) (op : Op) (ho : widthOk op) :
    ∃ v r', step e r op = .ok (v, r') ∧ r'.buffer = r.buffer ∧ Weak e r' ∧
      (∀ x, v = some x → x < 2 ^ opBits op) := by
  cases op with
  | getBit =>
    obtain ⟨b, r', h1, h2, h3, _⟩ := getBit_weak hw
    exact ⟨_, r', by simp only [step, h1, ok_bind, pure_eq_ok]; rfl, h2, h3,
      by intro x hx; cases hx; cases b <;> decide⟩
  | peekBit =>
    obtain ⟨b, r', h1, h2, h3, _⟩ := getBit_weak hw
    exact ⟨_, r, by simp only [step, peek_bit, h1, ok_bind, pure_eq_ok]; rfl, rfl, hw,
      by intro x hx; cases hx; cases b <;> decide⟩
  | get32 n =>
    obtain ⟨v, r', h1, h2, h3, h4, _⟩ := get32_weak hw (n := n) ho
    exact ⟨_, r', by simp only [step, h1, ok_bind, pure_eq_ok]; rfl, h2, h3,
      by intro x hx; cases hx; exact h4⟩
  | get64 n =>
    obtain ⟨v, r', h1, h2, h3, h4, _⟩ := get64_weak hw (n := n) ho
    exact ⟨_, r', by simp only [step, h1, ok_bind, pure_eq_ok]; rfl, h2, h3,
      by intro x hx; cases hx; exact h4⟩
  | peek32 n =>
    obtain ⟨v, r', h1, h2, h3, h4, _⟩ := get32_weak hw (n := n) ho
    exact ⟨_, r, by simp only [step, peek_bits_32, h1, ok_bind, pure_eq_ok]; rfl, rfl, hw,
      by intro x hx; cases hx; exact h4⟩
  | peek64 n =>
    obtain ⟨v, r', h1, h2, h3, h4, _⟩ := get64_weak hw (n := n) ho
    exact ⟨_, r, by simp only [step, peek_bits_64, h1, ok_bind, pure_eq_ok]; rfl, rfl, hw,
      by intro x hx; cases hx; exact h4⟩
  | skip n =>
    obtain ⟨r', h1, h2, h3⟩ := skip_weak hw n
    exact ⟨none, r', by simp only [step, h1, ok_bind, pure_eq_ok], h2, h3, by intro x hx; cases hx⟩
  | align =>
    obtain ⟨r', h1, h2, h3⟩ := skip_weak hw (r.left &&& 7)
    exact ⟨none, r', by simp only [step, align_bits, h1, ok_bind, pure_eq_ok], h2, h3,
      by intro x hx; cases hx⟩

theorem run_weak {e r} (hw : Weak e r) (ops : List Op) (ho : ∀ op ∈ ops, widthOk op) :
    ∃ vs r', run e r ops = .ok (vs, r') ∧ r'.buffer = r.buffer ∧ Weak e r' := by
  induction ops generalizing r with
  | nil => exact ⟨[], r, rfl, rfl, hw⟩
  | cons op ops ih =>
    obtain ⟨v, r1, h1, h2, h3, _⟩ := step_weak hw op (ho op (by simp))
    obtain ⟨vs, r2, h4, h5, h6⟩ := ih h3 (fun o h => ho o (by simp [h]))
    exact ⟨v :: vs, r2, by simp only [run, h1, ok_bind, h4, pure_eq_ok], h5.trans h2, h6⟩

/-- Reader states that some history of calls (with `n` within the result width) leads to. -/
def Reachable (e : Endian) (buf : List U8) (r : Reader) : Prop :=
  ∃ r0 ops vs, new e buf = .ok r0 ∧ (∀ op ∈ ops, widthOk op) ∧ run e r0 ops = .ok (vs, r)

theorem Reachable.weak {e buf r} (h : Reachable e buf r) : Weak e r ∧ r.buffer = buf := by
  obtain ⟨r0, ops, vs, h1, h2, h3⟩ := h
  obtain ⟨r1, a1, a2, _, a3⟩ := new_spec e buf
  rw [h1] at a1; cases a1
  obtain ⟨vs', r', b1, b2, b3⟩ := run_weak a3.weak ops h2
  rw [h3] at b1; cases b1
  exact ⟨b3, b2.trans a2⟩

/-! ### 64-bit reads on buffers of whole words -/

/-- Calls that refill 64 bits at a time. -/
def op64 : Op → Prop
  | .getBit | .peekBit | .align => True
  | .get64 n | .peek64 n | .skip n => n ≤ 64
  | .get32 _ | .peek32 _ => False

instance : DecidablePred op64 := fun op => by cases op <;> unfold op64 <;> infer_instance

/-- One 64-bit call anywhere in a buffer of whole words. -/
theorem step_whole {e r p} (hs : Synced e r p) (hl : r.buffer.length % 8 = 0)
    (hi : r.index % 8 = 0) (op : Op) (ho : op64 op) (hr : reach p op ≤ 8 * r.buffer.length) :
    ∃ r', step e r op = .ok (specVal e r.buffer p op, r') ∧ r'.buffer = r.buffer ∧
      Synced e r' (nextPos p op) ∧ r'.index % 8 = 0 := by
  have hp := hs.pos
  have hle := hs.idx_le
  cases op with
  | getBit =>
    obtain ⟨b, r', h1, h2, h3, h4, h5⟩ := getBit_spec hs
    simp only [reach] at hr
    have hlim : p + 1 ≤ r'.index * 8 := by
      simp only [canRefill, decide_eq_true_eq] at h3
      split at h3 <;> omega
    refine ⟨r', ?_, h2, ?_, by split at h3 <;> omega⟩
    · simp only [step, h1, ok_bind, pure_eq_ok, specVal, valueAt_one, h5, lbit_lt (show p < r'.index * 8 by omega)]
    · rwa [Nat.min_eq_left hlim] at h4
  | get32 n => exact absurd ho (by simp [op64])
  | peek32 n => exact absurd ho (by simp [op64])
  | get64 n =>
    obtain ⟨v, r', h1, h2, h3, h4, h5⟩ := get64_spec hs (n := n) ho
    simp only [reach] at hr
    simp only [op64] at ho
    have hlim : p + n ≤ r'.index * 8 := by
      simp only [canRefill, decide_eq_true_eq] at h3
      split at h3 <;> omega
    refine ⟨r', ?_, h2, ?_, by split at h3 <;> omega⟩
    · simp only [step, h1, ok_bind, pure_eq_ok, specVal, h5.toNat_full hlim]
    · rwa [Nat.min_eq_left hlim] at h4
  | skip n =>
    simp only [reach] at hr
    simp only [op64] at ho
    by_cases hn : n ≤ r.left
    · obtain ⟨r', h1, h2, h4, h3⟩ := skip_small hs hn
      exact ⟨r', by simp only [step, h1, ok_bind, pure_eq_ok, specVal], h2, h3, by omega⟩
    · have e1 : skipIndex r n = r.index := by simp [skipIndex, show ¬ n - r.left > 64 by omega]
      obtain ⟨r', h1, h2, h4, h3⟩ := skip_big hs (n := n) (by omega) (by rw [e1]; omega)
      exact ⟨r', by simp only [step, h1, ok_bind, pure_eq_ok, specVal], h2, h3, by omega⟩
  | align =>
    obtain ⟨r', h1, h2, h4, h3⟩ := align_spec hs
    exact ⟨r', by simp only [step, h1, ok_bind, pure_eq_ok, specVal], h2, h3, by omega⟩
  | peekBit =>
    obtain ⟨b, r', h1, h2, h3, h4, h5⟩ := getBit_spec hs
    simp only [reach] at hr
    have hlim : p + 1 ≤ r'.index * 8 := by
      simp only [canRefill, decide_eq_true_eq] at h3
      split at h3 <;> omega
    refine ⟨r, ?_, rfl, hs, hi⟩
    simp only [step, peek_bit, h1, ok_bind, pure_eq_ok, specVal, valueAt_one, h5, lbit_lt (show p < r'.index * 8 by omega)]
  | peek64 n =>
    obtain ⟨v, r', h1, h2, h3, h4, h5⟩ := get64_spec hs (n := n) ho
    simp only [reach] at hr
    simp only [op64] at ho
    have hlim : p + n ≤ r'.index * 8 := by
      simp only [canRefill, decide_eq_true_eq] at h3
      split at h3 <;> omega
    refine ⟨r, ?_, rfl, hs, hi⟩
    simp only [step, peek_bits_64, h1, ok_bind, pure_eq_ok, specVal, h5.toNat_full hlim]

/-- The history stays inside the buffer (no padding required). -/
def withinWhole (buf : List U8) (p : Nat) : List Op → Prop
  | [] => True
  | op :: ops => op64 op ∧ reach p op ≤ 8 * buf.length ∧ withinWhole buf (nextPos p op) ops

instance instDecWithinWhole (buf : List U8) :
    (p : Nat) → (ops : List Op) → Decidable (withinWhole buf p ops)
  | _, [] => isTrue trivial
  | p, op :: ops =>
    have := instDecWithinWhole buf (nextPos p op) ops
    by unfold withinWhole; infer_instance

theorem run_whole {e r p} (hs : Synced e r p) (hl : r.buffer.length % 8 = 0)
    (hi : r.index % 8 = 0) (ops : List Op) (hw : withinWhole r.buffer p ops) :
    ∃ r', run e r ops = .ok ((specRun e r.buffer p ops).1, r') ∧ r'.buffer = r.buffer ∧
      Synced e r' (specRun e r.buffer p ops).2 ∧ r'.index % 8 = 0 := by
  induction ops generalizing r p with
  | nil => exact ⟨r, rfl, rfl, hs, hi⟩
  | cons op ops ih =>
    obtain ⟨w1, w2, w3⟩ := hw
    obtain ⟨r1, h1, h2, h3, h4⟩ := step_whole hs hl hi op w1 w2
    obtain ⟨r2, a1, a2, a3, a4⟩ := ih h3 (by rw [h2]; exact hl) h4 (by rw [h2]; exact w3)
    rw [h2] at a1 a3
    exact ⟨r2, by simp only [run, h1, ok_bind, a1, pure_eq_ok, specRun], a2.trans h2, a3, a4⟩

theorem Synced.consumed {e r p} (h : Synced e r p) : consumed r = .ok p := by
  have := h.pos
  unfold BitRead.consumed
  rw [usub_ok (by omega)]
  congr 1; omega

theorem Synced.available {e r p} (h : Synced e r p) :
    available r = .ok (8 * r.buffer.length - p) := by
  have h1 := h.pos
  have h2 := h.idx_le
  unfold BitRead.available
  rw [usub_ok h2]
  simp only [ok_bind, pure_eq_ok]
  congr 1; omega

end Verif.BitRead
