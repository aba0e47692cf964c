import Verif.BitRead.Lemmas

/-! # Helper lemmas: every operation keeps the cache in step with the buffer -/

namespace Verif.BitRead
open Verif Verif.Bytes

/-- The reader stands at bit `p`: the cache holds the next `left` bits and zeros behind them. -/
structure Synced (e : Endian) (r : Reader) (p : Nat) : Prop where
  left_le : r.left ≤ 64
  pos : r.index * 8 = p + r.left
  idx_le : r.index ≤ r.buffer.length
  real : ∀ j, j < r.left → cacheBit e r.cache j = bit e r.buffer (p + j)
  zero : ∀ j, r.left ≤ j → cacheBit e r.cache j = false

/-- What holds after any history whatsoever. -/
structure Weak (e : Endian) (r : Reader) : Prop where
  left_le : r.left ≤ 64
  left_idx : r.left ≤ r.index * 8
  zero : ∀ j, r.left ≤ j → cacheBit e r.cache j = false

theorem Synced.weak {e r p} (h : Synced e r p) : Weak e r :=
  ⟨h.left_le, by have := h.pos; omega, h.zero⟩

/-- Bit `q` of the stream when only bits before `lim` have been loaded. -/
def lbit (e : Endian) (buf : List U8) (lim q : Nat) : Bool := decide (q < lim) && bit e buf q

theorem lbit_lt {e : Endian} {buf : List U8} {lim q : Nat} (h : q < lim) :
    lbit e buf lim q = bit e buf q := by simp [lbit, h]
theorem lbit_ge {e : Endian} {buf : List U8} {lim q : Nat} (h : lim ≤ q) :
    lbit e buf lim q = false := by simp [lbit, Nat.not_lt.mpr h]

theorem Synced.cache {e r p} (h : Synced e r p) (j : Nat) :
    cacheBit e r.cache j = lbit e r.buffer (r.index * 8) (p + j) := by
  have := h.pos
  by_cases hj : j < r.left
  · rw [h.real j hj, lbit_lt (by omega)]
  · rw [h.zero j (by omega), lbit_ge (by omega)]

theorem Synced.skipRem {e r p} (h : Synced e r p) {n : Nat} (hn : n ≤ 64) :
    Synced e (skipRem e r n) (p + min n r.left) := by
  have hp := h.pos
  refine ⟨by have := h.left_le; simp; omega, by simp; omega, by simpa using h.idx_le, ?_, ?_⟩
  · intro j hj
    simp at hj
    rw [cacheBit_skipRem _ _ hn, h.real _ (by omega)]
    simp only [skipRem_buffer]
    congr 1; omega
  · intro j hj
    simp at hj
    rw [cacheBit_skipRem _ _ hn, h.zero _ (by omega)]

theorem Weak.skipRem {e r} (h : Weak e r) {n : Nat} (hn : n ≤ 64) :
    Weak e (skipRem e r n) := by
  have h1 := h.left_le
  have h2 := h.left_idx
  refine ⟨by simp; omega, by simp; omega, ?_⟩
  intro j hj
  simp at hj
  rw [cacheBit_skipRem _ _ hn, h.zero _ (by omega)]

theorem refill64_no (e : Endian) (r : Reader) (h : canRefill r = false) : refill64 e r = .ok r := by
  simp [refill64, h]

theorem refill32_no (e : Endian) (r : Reader) (h : canRefill r = false) : refill32 e r = .ok r := by
  simp [refill32, h]

/-- A successful 64-bit refill puts any reader in step at the byte `index`. -/
theorem refill64_yes (e : Endian) (r : Reader) (h : canRefill r = true) :
    ∃ r', refill64 e r = .ok r' ∧ r'.buffer = r.buffer ∧ r'.index = r.index + 8 ∧ r'.left = 64 ∧
      Synced e r' (r.index * 8) := by
  obtain ⟨c, h1, h2⟩ := fill64_spec e r h
  have hl : r.index + 8 ≤ r.buffer.length := by simpa [canRefill] using h
  refine ⟨{ r with cache := c, index := r.index + 8, left := 64 }, by simp [refill64, h, h1], rfl,
    rfl, rfl, ⟨by simp, by simp only; omega, hl, ?_, ?_⟩⟩
  · intro j hj
    simp only at hj ⊢
    rw [h2 j hj, Nat.mul_comm]
  · intro j hj
    exact cacheBit_ge e c hj

theorem refill64_weak (e : Endian) (r : Reader) (hw : Weak e r) :
    ∃ r', refill64 e r = .ok r' ∧ r'.buffer = r.buffer ∧ Weak e r' := by
  by_cases h : canRefill r = true
  · obtain ⟨r', h1, h2, _, _, h3⟩ := refill64_yes e r h
    exact ⟨r', h1, h2, h3.weak⟩
  · exact ⟨r, refill64_no e r (by simpa using h), rfl, hw⟩

theorem refill32_yes (e : Endian) (r : Reader) (h : canRefill r = true) (hl : r.left ≤ 32) :
    ∃ r', refill32 e r = .ok r' ∧ r'.buffer = r.buffer ∧ r'.index = r.index + 4 ∧
      r'.left = r.left + 32 ∧ (∀ p, Synced e r p → Synced e r' p) ∧ (Weak e r → Weak e r') := by
  obtain ⟨v, h1, h2⟩ := fill32_spec e r h
  obtain ⟨c, h3, h4⟩ := buildCache_spec e r.cache v hl
  have hi : r.index + 8 ≤ r.buffer.length := by simpa [canRefill] using h
  refine ⟨{ r with cache := c, index := r.index + 4, left := r.left + 32 },
    by simp [refill32, h, h1, h3], rfl, rfl, rfl, ?_, ?_⟩
  · intro p hs
    have hp := hs.pos
    refine ⟨by simp only; omega, by simp only; omega, by simp only; omega, ?_, ?_⟩
    · intro j hj
      simp only at hj ⊢
      rw [h4 j (by omega)]
      by_cases hj' : j < r.left
      · simp [hs.real j hj', show ¬ r.left ≤ j by omega]
      · have e1 : r.left ≤ j := by omega
        have e2 : j - r.left < 32 := by omega
        rw [hs.zero j e1, h2 _ e2]
        simp only [e1, e2, decide_true, Bool.and_self, Bool.true_and, Bool.false_or]
        congr 1; omega
    · intro j hj
      simp only at hj ⊢
      by_cases h64 : j < 64
      · rw [h4 j h64, hs.zero j (by omega)]
        simp [show ¬ j - r.left < 32 by omega]
      · exact cacheBit_ge e c (by omega)
  · intro hs
    refine ⟨by simp only; omega, by have := hs.left_idx; simp only; omega, ?_⟩
    intro j hj
    simp only at hj ⊢
    by_cases h64 : j < 64
    · rw [h4 j h64, hs.zero j (by omega)]
      simp [show ¬ j - r.left < 32 by omega]
    · exact cacheBit_ge e c (by omega)

theorem new_spec (e : Endian) (buf : List U8) :
    ∃ r, new e buf = .ok r ∧ r.buffer = buf ∧ r.index = (if 8 ≤ buf.length then 8 else 0) ∧
      Synced e r 0 := by
  by_cases h : canRefill { buffer := buf, index := 0, cache := 0, left := 0 } = true
  · obtain ⟨r', h1, h2, h3, _, h4⟩ := refill64_yes e _ h
    refine ⟨r', h1, h2, ?_, by simpa using h4⟩
    have : 8 ≤ buf.length := by simpa [canRefill] using h
    simp [h3, this]
  · have h : canRefill { buffer := buf, index := 0, cache := 0, left := 0 } = false := by simpa using h
    have hn : ¬ 8 ≤ buf.length := by simpa [canRefill] using h
    refine ⟨_, refill64_no e _ h, rfl, by simp [hn], ⟨by simp, by simp, by simp, by simp, ?_⟩⟩
    intro j _
    cases e <;> simp [cacheBit]

/-! ### reads -/

/-- Result of an `n`-bit read at `p` when nothing at or behind bit `lim` can be loaded. -/
def ReadBits (e : Endian) (buf : List U8) (p n lim : Nat) (v : BitVec w) : Prop :=
  ∀ i, v.getLsbD i = (decide (i < n) && lbit e buf lim (p + ridx e n i))

theorem get32_spec {e r p} (hs : Synced e r p) {n : Nat} (hn : n ≤ 32) :
    ∃ v r', get_bits_32 e r n = .ok (v, r') ∧ r'.buffer = r.buffer ∧
      r'.index = (if n ≠ 0 ∧ r.left ≤ n ∧ canRefill r then r.index + 4 else r.index) ∧
      Synced e r' (min (p + n) (r'.index * 8)) ∧ ReadBits e r.buffer p n (r'.index * 8) v := by
  have hp := hs.pos
  by_cases h0 : n = 0
  · subst h0
    refine ⟨0, r, by simp [get_bits_32], rfl, by simp, ?_, ?_⟩
    · rw [show min (p + 0) (r.index * 8) = p by omega]; exact hs
    · intro i; simp
  obtain ⟨r1, hr1, hb, hi, hs1⟩ : ∃ r1, (if r.left ≤ n then refill32 e r else .ok r) = .ok r1 ∧
      r1.buffer = r.buffer ∧ r1.index = (if r.left ≤ n ∧ canRefill r then r.index + 4 else r.index) ∧
      Synced e r1 p := by
    by_cases h1 : r.left ≤ n
    · by_cases h2 : canRefill r = true
      · obtain ⟨r', a1, a2, a3, _, a4, _⟩ := refill32_yes e r h2 (by omega)
        exact ⟨r', by simp [h1, a1], a2, by simp [h1, h2, a3], a4 p hs⟩
      · exact ⟨r, by simp [h1, refill32_no e r (by simpa using h2)], rfl, by simp [h2], hs⟩
    · exact ⟨r, by simp [h1], rfl, by simp [h1], hs⟩
  obtain ⟨v, hv1, hv2⟩ := getVal_spec e r1 (n := n) (by omega)
  have hp1 := hs1.pos
  refine ⟨v.setWidth 32, skipRem e r1 n, ?_, by simp [hb], by simp [hi, h0], ?_, ?_⟩
  · unfold get_bits_32
    rw [if_neg h0, hr1]
    simp only [ok_bind, hv1, pure_eq_ok]
  · have := hs1.skipRem (n := n) (by omega)
    rw [skipRem_index, show min (p + n) (r1.index * 8) = p + min n r1.left by omega]
    exact this
  · intro i
    rw [BitVec.getLsbD_setWidth, hv2, hs1.cache, skipRem_index, hb]
    by_cases hi : i < n
    · simp [hi, show i < 32 by omega]
    · simp [hi]

theorem get64_spec {e r p} (hs : Synced e r p) {n : Nat} (hn : n ≤ 64) :
    ∃ v r', get_bits_64 e r n = .ok (v, r') ∧ r'.buffer = r.buffer ∧
      r'.index = (if r.left < n ∧ canRefill r then r.index + 8 else r.index) ∧
      Synced e r' (min (p + n) (r'.index * 8)) ∧ ReadBits e r.buffer p n (r'.index * 8) v := by
  have hp := hs.pos
  by_cases h0 : n = 0
  · subst h0
    refine ⟨0, r, by simp [get_bits_64], rfl, by simp, ?_, ?_⟩
    · rw [show min (p + 0) (r.index * 8) = p by omega]; exact hs
    · intro i; simp
  by_cases h1 : r.left < n
  · obtain ⟨ret, hr1, hr2⟩ := getVal_spec e r (n := r.left) hs.left_le
    have hs0 := hs.skipRem (n := r.left) hs.left_le
    rw [Nat.min_self] at hs0
    obtain ⟨r1, hf, hb, hi, hs1⟩ : ∃ r1, refill64 e (skipRem e r r.left) = .ok r1 ∧
        r1.buffer = r.buffer ∧ r1.index = (if canRefill r then r.index + 8 else r.index) ∧
        Synced e r1 (p + r.left) := by
      by_cases h2 : canRefill r = true
      · obtain ⟨r', a1, a2, a3, _, a4⟩ := refill64_yes e (skipRem e r r.left)
          (by simpa [canRefill] using h2)
        refine ⟨r', a1, by simp [a2], by simp [h2, a3], ?_⟩
        rw [skipRem_index, hp] at a4
        exact a4
      · exact ⟨_, refill64_no e _ (by simpa [canRefill] using h2), by simp, by simp [h2], hs0⟩
    obtain ⟨v, hv1, hv2⟩ := getVal_spec e r1 (n := n - r.left) (by omega)
    have hp1 := hs1.pos
    have key : ∀ m : BitVec 64, (∀ i, m.getLsbD i =
        (decide (i < n) && lbit e r.buffer (r1.index * 8) (p + ridx e n i))) →
        mergeVal e v ret r.left (n - r.left) = .ok m →
        ∃ v r', get_bits_64 e r n = .ok (v, r') ∧ r'.buffer = r.buffer ∧
        r'.index = (if r.left < n ∧ canRefill r then r.index + 8 else r.index) ∧
        Synced e r' (min (p + n) (r'.index * 8)) ∧ ReadBits e r.buffer p n (r'.index * 8) v := by
      intro m hm hmm
      refine ⟨m, skipRem e r1 (n - r.left), ?_, by simp [hb], by simp [hi, h1], ?_, ?_⟩
      · simp only [get_bits_64, if_neg h0, if_pos h1, hr1, ok_bind, hf, hv1, hmm, pure_eq_ok]
      · have := hs1.skipRem (n := n - r.left) (by omega)
        rw [skipRem_index, show min (p + n) (r1.index * 8)
          = p + r.left + min (n - r.left) r1.left by omega]
        exact this
      · intro i; rw [hm, skipRem_index]
    have hlim : p + r.left ≤ r1.index * 8 := by omega
    cases e
    · refine key (v <<< r.left ||| ret) ?_ ?_
      · intro i
        rw [BitVec.getLsbD_or, BitVec.getLsbD_shiftLeft, hv2, hr2, hs1.cache, hs.cache, hb]
        simp only [ridx]
        by_cases c1 : i < r.left
        · rw [lbit_lt (lim := r.index * 8) (by omega), lbit_lt (lim := r1.index * 8) (q := p + i) (by omega)]
          simp [c1, show i < n by omega]
        · by_cases c2 : i < n
          · simp [c1, c2, show i < 64 by omega, show i - r.left < n - r.left by omega,
              show p + r.left + (i - r.left) = p + i by omega]
          · simp [c1, c2, show ¬ i - r.left < n - r.left by omega]
      · simp [mergeVal, shlPanic, show r.left < 64 by omega]
    · refine key (v ||| ret <<< (n - r.left)) ?_ ?_
      · intro i
        rw [BitVec.getLsbD_or, BitVec.getLsbD_shiftLeft, hv2, hr2, hs1.cache, hs.cache, hb]
        simp only [ridx]
        by_cases c1 : i < n - r.left
        · simp [c1, show i < n by omega,
            show p + r.left + (n - r.left - 1 - i) = p + (n - 1 - i) by omega]
        · by_cases c2 : i < n
          · rw [show r.left - 1 - (i - (n - r.left)) = n - 1 - i by omega,
              lbit_lt (lim := r.index * 8) (by omega),
              lbit_lt (lim := r1.index * 8) (q := p + (n - 1 - i)) (by omega)]
            simp [c1, c2, show i < 64 by omega, show i - (n - r.left) < r.left by omega]
          · simp [c1, c2, show ¬ i - (n - r.left) < r.left by omega]
      · simp [mergeVal, checkedShl_small _ (show n - r.left ≤ 64 by omega)]
  · obtain ⟨v, hv1, hv2⟩ := getVal_spec e r (n := n) hn
    have hm : mergeVal e v 0 0 n = .ok v := by
      cases e
      · simp [mergeVal, shlPanic]
      · simp [mergeVal, checkedShl_small _ hn]
    refine ⟨v, skipRem e r n, ?_, by simp, by simp [h1], ?_, ?_⟩
    · simp only [get_bits_64, if_neg h0, if_neg h1, ok_bind, hv1, hm, pure_eq_ok]
    · have := hs.skipRem (n := n) hn
      rw [skipRem_index, show min (p + n) (r.index * 8) = p + min n r.left by omega]
      exact this
    · intro i
      rw [hv2, hs.cache, skipRem_index]

theorem getBit_spec {e r p} (hs : Synced e r p) :
    ∃ b r', get_bit e r = .ok (b, r') ∧ r'.buffer = r.buffer ∧
      r'.index = (if r.left = 0 ∧ canRefill r then r.index + 8 else r.index) ∧
      Synced e r' (min (p + 1) (r'.index * 8)) ∧
      b = lbit e r.buffer (r'.index * 8) p := by
  have hp := hs.pos
  obtain ⟨r1, hf, hb, hi, hs1⟩ : ∃ r1, (if r.left = 0 then refill64 e r else .ok r) = .ok r1 ∧
      r1.buffer = r.buffer ∧ r1.index = (if r.left = 0 ∧ canRefill r then r.index + 8 else r.index) ∧
      Synced e r1 p := by
    by_cases h1 : r.left = 0
    · by_cases h2 : canRefill r = true
      · obtain ⟨r', a1, a2, a3, _, a4⟩ := refill64_yes e r h2
        refine ⟨r', by simp [h1, a1], a2, by simp [h1, h2, a3], ?_⟩
        rw [hp, h1] at a4; exact a4
      · exact ⟨r, by simp [h1, refill64_no e r (by simpa using h2)], rfl, by simp [h2], hs⟩
    · exact ⟨r, by simp [h1], rfl, by simp [h1], hs⟩
  obtain ⟨v, hv1, hv2⟩ := getVal_spec e r1 (n := 1) (by omega)
  have hp1 := hs1.pos
  refine ⟨v != 0, skipRem e r1 1, ?_, by simp [hb], by simp [hi], ?_, ?_⟩
  · unfold get_bit
    rw [hf]
    simp only [ok_bind, hv1, pure_eq_ok]
  · have := hs1.skipRem (n := 1) (by omega)
    rw [skipRem_index, show min (p + 1) (r1.index * 8) = p + min 1 r1.left by omega]
    exact this
  · rw [skipRem_index]
    have h0 := hv2 0
    have hr : ridx e 1 0 = 0 := by cases e <;> rfl
    rw [hr, hs1.cache, hb] at h0
    simp only [Nat.add_zero, Nat.zero_lt_one, decide_true, Bool.true_and] at h0
    rw [← h0]
    by_cases hz : v.getLsbD 0 = true
    · have : v ≠ 0 := by intro hc; subst hc; simp at hz
      rw [hz]; exact bne_iff_ne.mpr this
    · have : v = 0 := by
        apply BitVec.eq_of_getLsbD_eq
        intro i _
        by_cases hi0 : i = 0
        · subst hi0; simpa using hz
        · rw [hv2 i]; simp [show ¬ i < 1 by omega]
      simp [this]

/-! ### skips -/

/-- Skips that need no refill. -/
theorem skip_small {e r p} (hs : Synced e r p) {n : Nat} (h : n ≤ r.left) :
    ∃ r', skip_bits e r n = .ok r' ∧ r'.buffer = r.buffer ∧ r'.index = r.index ∧
      Synced e r' (p + n) := by
  have hl := hs.left_le
  refine ⟨skipRem e r n, by simp [skip_bits, Nat.not_lt.mpr h], by simp, by simp, ?_⟩
  have := hs.skipRem (n := n) (by omega)
  rwa [Nat.min_eq_left h] at this

/-- Byte index at which a long skip refills. -/
def skipIndex (r : Reader) (n : Nat) : Nat :=
  if n - r.left > 64 then r.index + (n - r.left) / 8 else r.index

/-- Bits still to drop after that refill. -/
def skipRest (r : Reader) (n : Nat) : Nat :=
  if n - r.left > 64 then n - r.left - (n - r.left) / 8 * 8 else n - r.left

theorem skip_big {e r p} (hs : Synced e r p) {n : Nat} (h : r.left < n)
    (hi : skipIndex r n + 8 ≤ r.buffer.length) :
    ∃ r', skip_bits e r n = .ok r' ∧ r'.buffer = r.buffer ∧ r'.index = skipIndex r n + 8 ∧
      Synced e r' (p + n) := by
  have hp := hs.pos
  unfold skipIndex at hi
  by_cases h64 : n - r.left > 64
  · simp only [h64, if_true] at hi
    obtain ⟨r', a1, a2, a3, a4, a5⟩ := refill64_yes e
      (skipRem e { r with index := r.index + (n - r.left) / 8 } (n - r.left - (n - r.left) / 8 * 8))
      (by simpa [canRefill] using hi)
    refine ⟨skipRem e r' (n - r.left - (n - r.left) / 8 * 8), ?_, by simp [a2], ?_, ?_⟩
    · simp [skip_bits, h, h64, a1]
    · simp [a3, skipIndex, h64]
    · have := a5.skipRem (n := n - r.left - (n - r.left) / 8 * 8) (by omega)
      rw [a4, skipRem_index] at this
      simp only at this
      rw [show (r.index + (n - r.left) / 8) * 8 + min (n - r.left - (n - r.left) / 8 * 8) 64 = p + n
        by omega] at this
      exact this
  · simp only [h64, if_false] at hi
    obtain ⟨r', a1, a2, a3, a4, a5⟩ := refill64_yes e (skipRem e r (n - r.left))
      (by simpa [canRefill] using hi)
    refine ⟨skipRem e r' (n - r.left), ?_, by simp [a2], ?_, ?_⟩
    · simp [skip_bits, h, h64, a1]
    · simp [a3, skipIndex, h64]
    · have := a5.skipRem (n := n - r.left) (by omega)
      rw [a4, skipRem_index] at this
      rw [show r.index * 8 + min (n - r.left) 64 = p + n by omega] at this
      exact this

theorem skip_within {e r p} (hs : Synced e r p) {n : Nat} (h : p + n + 64 ≤ 8 * r.buffer.length) :
    ∃ r', skip_bits e r n = .ok r' ∧ r'.buffer = r.buffer ∧ Synced e r' (p + n) := by
  have hp := hs.pos
  by_cases hl : n ≤ r.left
  · obtain ⟨r', h1, h2, _, h3⟩ := skip_small hs hl
    exact ⟨r', h1, h2, h3⟩
  · obtain ⟨r', h1, h2, _, h3⟩ := skip_big hs (n := n) (by omega)
      (by unfold skipIndex; split <;> omega)
    exact ⟨r', h1, h2, h3⟩

theorem align_spec {e r p} (hs : Synced e r p) :
    ∃ r', align_bits e r = .ok r' ∧ r'.buffer = r.buffer ∧ r'.index = r.index ∧
      Synced e r' (alignUp p) := by
  have e1 : r.left &&& 7 = r.left % 8 := Nat.and_two_pow_sub_one_eq_mod r.left 3
  have hp := hs.pos
  obtain ⟨r', h1, h2, h3, h4⟩ := skip_small hs (n := r.left % 8) (Nat.mod_le _ _)
  refine ⟨r', by rw [align_bits, e1, h1], h2, h3, ?_⟩
  rwa [show p + r.left % 8 = alignUp p by unfold alignUp; omega] at h4

/-! ### numbers formed by bits -/

/-- Number formed by the bits `f 0 … f (n-1)`. -/
def bitsVal (e : Endian) (f : Nat → Bool) : Nat → Nat
  | 0 => 0
  | n + 1 =>
    match e with
    | .le => bitsVal e f n + (f n).toNat * 2 ^ n
    | .be => 2 * bitsVal e f n + (f n).toNat

theorem valueAt_eq (e : Endian) (buf : List U8) (p n : Nat) :
    valueAt e buf p n = bitsVal e (fun j => bit e buf (p + j)) n := by
  induction n with
  | zero => rfl
  | succ n ih => cases e <;> simp [valueAt, bitsVal, ih]

theorem bitsVal_lt (e : Endian) (f : Nat → Bool) (n : Nat) : bitsVal e f n < 2 ^ n := by
  induction n with
  | zero => simp [bitsVal]
  | succ n ih =>
    have : (f n).toNat ≤ 1 := Bool.toNat_le _
    rw [Nat.pow_succ]
    cases e
    · simp only [bitsVal]
      have : (f n).toNat * 2 ^ n ≤ 1 * 2 ^ n := Nat.mul_le_mul_right _ this
      omega
    · simp only [bitsVal]; omega

theorem bitsVal_testBit (e : Endian) (f : Nat → Bool) (n i : Nat) :
    (bitsVal e f n).testBit i = (decide (i < n) && f (ridx e n i)) := by
  induction n generalizing i with
  | zero => simp [bitsVal]
  | succ n ih =>
    cases e
    · have hlt := bitsVal_lt .le f n
      simp only [bitsVal, ridx] at ih ⊢
      rw [Nat.add_comm, Nat.mul_comm, Nat.testBit_two_pow_mul_add _ hlt]
      by_cases h : i < n
      · simp [h, ih, show i < n + 1 by omega]
      · by_cases h2 : i = n
        · subst h2; cases f i <;> simp
        · have : ¬ i < n + 1 := by omega
          have h3 : i - n = (i - n - 1) + 1 := by omega
          simp only [h, if_false, this, decide_false, Bool.false_and]
          rw [h3]
          cases f n <;> simp [Nat.testBit_succ]
    · simp only [bitsVal, ridx] at ih ⊢
      cases i with
      | zero => cases h : f n <;> simp [h, Nat.testBit_zero]
      | succ i =>
        rw [Nat.testBit_succ, show (2 * bitsVal .be f n + (f n).toNat) / 2 = bitsVal .be f n by
          have := Bool.toNat_le (f n); omega, ih]
        have : n - 1 - i = n + 1 - 1 - (i + 1) := by omega
        simp [this]

theorem toNat_of_bits (e : Endian) (f : Nat → Bool) {n w : Nat} (v : BitVec w)
    (h : ∀ i, v.getLsbD i = (decide (i < n) && f (ridx e n i))) : v.toNat = bitsVal e f n := by
  apply Nat.eq_of_testBit_eq
  intro i
  rw [bitsVal_testBit, ← h]
  rfl

theorem bitsVal_congr (e : Endian) {f g : Nat → Bool} {n : Nat} (h : ∀ j, j < n → f j = g j) :
    bitsVal e f n = bitsVal e g n := by
  induction n with
  | zero => rfl
  | succ n ih =>
    have ih := ih (fun j hj => h j (by omega))
    cases e <;> simp [bitsVal, ih, h n (by omega)]

/-- Value of a read of which only the bits before `lim` could be loaded. -/
theorem ReadBits.toNat {e : Endian} {buf : List U8} {p n lim : Nat} {v : BitVec w}
    (h : ReadBits e buf p n lim v) :
    v.toNat = bitsVal e (fun j => lbit e buf lim (p + j)) n :=
  toNat_of_bits e _ v h

/-- Value of a read all of whose bits could be loaded. -/
theorem ReadBits.toNat_full {e : Endian} {buf : List U8} {p n lim : Nat} {v : BitVec w}
    (h : ReadBits e buf p n lim v) (hl : p + n ≤ lim) : v.toNat = valueAt e buf p n := by
  rw [h.toNat, valueAt_eq]
  apply bitsVal_congr
  intro j hj
  exact lbit_lt (by omega)

theorem valueAt_one (e : Endian) (buf : List U8) (p : Nat) :
    valueAt e buf p 1 = (bit e buf p).toNat := by
  cases e <;> simp [valueAt]

end Verif.BitRead
