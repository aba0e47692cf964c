import Verif.BitRead.Exact

/-! # C100: reads wider than their result -/

namespace Verif.BitRead
open Verif Verif.Bytes

theorem wide32 {e r p} (hs : Synced e r p) {n : Nat} (h0 : n ≠ 0) (h : n < r.left) :
    ∃ v r', get_bits_32 e r n = .ok (v, r') ∧ r'.buffer = r.buffer ∧ Synced e r' (p + n) ∧
      v.toNat = valueAt e r.buffer p n % 2 ^ 32 := by
  have hp := hs.pos
  have hl := hs.left_le
  obtain ⟨v, hv1, hv2⟩ := getVal_spec e r (n := n) (by omega)
  refine ⟨v.setWidth 32, skipRem e r n, ?_, by simp, ?_, ?_⟩
  · unfold get_bits_32
    rw [if_neg h0, if_neg (by omega)]
    simp only [ok_bind, hv1, pure_eq_ok]
  · have := hs.skipRem (n := n) (by omega)
    rwa [show min n r.left = n by omega] at this
  · have : ReadBits e r.buffer p n (r.index * 8) v := by
      intro i; rw [hv2, hs.cache]
    rw [BitVec.toNat_setWidth, this.toNat_full (by omega)]

theorem valueAt_testBit (e : Endian) (buf : List U8) (p n i : Nat) :
    (valueAt e buf p n).testBit i = (decide (i < n) && bit e buf (p + ridx e n i)) := by
  rw [valueAt_eq, bitsVal_testBit]

theorem wide64 {e r p} (hs : Synced e r p) {n : Nat} (h64 : 64 < n) (hl : e = .le → r.left < 64) (hn : n ≤ 64 + r.left)
    (hc : canRefill r = true) :
    ∃ v r', get_bits_64 e r n = .ok (v, r') ∧ r'.buffer = r.buffer ∧ Synced e r' (p + n) ∧
      v.toNat = valueAt e r.buffer p n % 2 ^ 64 := by
  have hp := hs.pos
  have hll := hs.left_le
  obtain ⟨ret, hr1, hr2⟩ := getVal_spec e r (n := r.left) hs.left_le
  obtain ⟨r1, hf, a2, a3, a4, hs1⟩ := refill64_yes e (skipRem e r r.left) (by simpa [canRefill] using hc)
  rw [skipRem_index] at a3 hs1
  have hb : r1.buffer = r.buffer := by simp [a2]
  rw [hp] at hs1
  obtain ⟨v, hv1, hv2⟩ := getVal_spec e r1 (n := n - r.left) (by omega)
  have key : ∀ m : BitVec 64, (∀ i, i < 64 → m.getLsbD i = bit e r.buffer (p + ridx e n i)) →
      mergeVal e v ret r.left (n - r.left) = .ok m →
      ∃ v r', get_bits_64 e r n = .ok (v, r') ∧ r'.buffer = r.buffer ∧ Synced e r' (p + n) ∧
        v.toNat = valueAt e r.buffer p n % 2 ^ 64 := by
    intro m hm hmm
    refine ⟨m, skipRem e r1 (n - r.left), ?_, by simp [hb], ?_, ?_⟩
    · simp only [get_bits_64, if_neg (show n ≠ 0 by omega), if_pos (show r.left < n by omega), hr1, ok_bind, hf, hv1,
        hmm, pure_eq_ok]
    · have := hs1.skipRem (n := n - r.left) (by omega)
      rwa [a4, show p + r.left + min (n - r.left) 64 = p + n by omega] at this
    · apply Nat.eq_of_testBit_eq
      intro i
      rw [Nat.testBit_mod_two_pow, valueAt_testBit]
      by_cases hi : i < 64
      · rw [show m.toNat.testBit i = m.getLsbD i from rfl, hm i hi]
        simp [hi, show i < n by omega]
      · rw [show m.toNat.testBit i = m.getLsbD i from rfl, BitVec.getLsbD_of_ge _ _ (by omega)]
        simp [hi]
  cases e
  · refine key (v <<< r.left ||| ret) ?_ ?_
    · intro i hi
      rw [BitVec.getLsbD_or, BitVec.getLsbD_shiftLeft, hv2, hr2, hs1.cache, hs.cache, hb]
      simp only [ridx]
      by_cases c1 : i < r.left
      · rw [lbit_lt (lim := r.index * 8) (by omega)]
        simp [c1]
      · rw [lbit_lt (lim := r1.index * 8) (by omega)]
        simp [c1, hi, show i - r.left < n - r.left by omega, show p + r.left + (i - r.left) = p + i by omega]
    · simp [mergeVal, shlPanic, hl rfl]
  · refine key (v ||| ret <<< (n - r.left)) ?_ ?_
    · intro i hi
      rw [BitVec.getLsbD_or, BitVec.getLsbD_shiftLeft, hv2, hr2, hs1.cache, hs.cache, hb]
      simp only [ridx]
      by_cases c1 : i < n - r.left
      · rw [lbit_lt (lim := r1.index * 8) (by omega)]
        simp [c1, show p + r.left + (n - r.left - 1 - i) = p + (n - 1 - i) by omega]
      · rw [show r.left - 1 - (i - (n - r.left)) = n - 1 - i by omega, lbit_lt (lim := r.index * 8) (by omega)]
        simp [c1, hi, show i - (n - r.left) < r.left by omega]
    · simp [mergeVal, checkedShl_small _ (show n - r.left ≤ 64 by omega)]

/-- **C100, partial** After any in-data history, a read wider than its result delivers the low bits of the number
formed and moves by the full width, as long as, for `get_bits_32`, more than `n` bits are cached, and for
`get_bits_64` fewer than 64 are and `n` at most that many beyond 64.
Missing for C100: the other cases, in which it is false. -/
theorem c100_partial (e : Endian) (buf : List U8) (pre : List Op) (hpre : within buf 0 pre) :
    ∃ r0 vs r p, new e buf = .ok r0 ∧ run e r0 pre = .ok (vs, r) ∧ consumed r = .ok p ∧
      (∀ n, n ≠ 0 → n < r.left → ∃ v r', get_bits_32 e r n = .ok (v, r') ∧
        v.toNat = valueAt e buf p n % 2 ^ 32 ∧ consumed r' = .ok (p + n)) ∧
      (∀ n, r.left < 64 → n ≤ 64 + r.left → p + n + 64 ≤ 8 * buf.length → ∃ v r', get_bits_64 e r n = .ok (v, r') ∧
        v.toNat = valueAt e buf p n % 2 ^ 64 ∧ consumed r' = .ok (p + n)) := by
  obtain ⟨r0, h1, h2, _, h3⟩ := new_spec e buf
  obtain ⟨r, h4, h5, h6⟩ := run_within h3 pre (by rw [h2]; exact hpre)
  rw [h2] at h4 h5 h6
  refine ⟨r0, _, r, _, h1, h4, h6.consumed, ?_, ?_⟩
  · intro n h0 hn
    obtain ⟨v, r', a1, a2, a3, a4⟩ := wide32 h6 h0 hn
    exact ⟨v, r', a1, by rw [a4, h5], a3.consumed⟩
  · intro n hl hn hin
    by_cases h64 : 64 < n
    · have hp := h6.pos
      have hc : canRefill r = true := by
        unfold canRefill; rw [h5]; exact decide_eq_true (by omega)
      obtain ⟨v, r', a1, a2, a3, a4⟩ := wide64 h6 h64 (fun _ => hl) hn hc
      exact ⟨v, r', a1, by rw [a4, h5], a3.consumed⟩
    · obtain ⟨v, r', a1, a2, a3, a4, a5⟩ := get64_spec h6 (n := n) (by omega)
      have hp := h6.pos
      have hp' := a4.pos
      have hreach : (specRun e buf 0 pre).2 + n ≤ r'.index * 8 := by
        by_cases hlt : r.left < n
        · have hc : canRefill r = true := by
            unfold canRefill; rw [h5]; exact decide_eq_true (by omega)
          rw [hc] at a3
          simp only [hlt, and_self, if_true] at a3
          omega
        · simp only [hlt, false_and, if_false] at a3
          omega
      refine ⟨v, r', a1, ?_, ?_⟩
      · rw [a5.toNat_full hreach, h5, Nat.mod_eq_of_lt]
        exact Nat.lt_of_lt_of_le (valueAt_lt ..) (Nat.pow_le_pow_right (by omega) (by omega))
      · rw [a4.consumed]
        congr 1; omega

example : ∃ r0 vs r, within sample 0 [.get64 20, .get64 30] ∧ new .be sample = .ok r0 ∧
    run .be r0 [.get64 20] = .ok (vs, r) ∧ r.left = 44 ∧
    get_bits_32 .be r 40 = .ok (BitVec.ofNat 32 (valueAt .be sample 20 40), skipRem .be r 40) := by
  refine ⟨_, _, _, by decide, rfl, rfl, by decide, by decide⟩

/-- **C100 fails** With 40 bits cached, `get_bits_32(50)` panics in the big-endian reader. In the little-endian one it
returns its 32 bits, but of the four bytes it loads one is lost: the stream goes on with zeros in its place. -/
theorem c100_fails :
    (∃ r0 vs r, new .be c12buf = .ok r0 ∧ run .be r0 [.get64 24] = .ok (vs, r) ∧
      get_bits_32 .be r 50 = .error .overflow) ∧
    (∃ r0 vs r v r', new .le c12buf = .ok r0 ∧ run .le r0 [.get64 24] = .ok (vs, r) ∧
      get_bits_32 .le r 50 = .ok (v, r') ∧ v.toNat = valueAt .le c12buf 24 50 % 2 ^ 32 ∧ consumed r' = .ok 74 ∧
      (step .le r' (.get32 22)).toOption.map (·.1) = some (some (2 ^ 14 - 1)) ∧
      valueAt .le c12buf 74 22 = 2 ^ 22 - 1) := by
  refine ⟨⟨_, _, _, rfl, rfl, by decide⟩, ⟨_, _, _, _, _, rfl, rfl, rfl, ?_⟩⟩
  decide

/-- **C100 fails** `get_bits_64(65)` on a fresh little-endian reader panics (shift by 64); the big-endian reader
truncates. -/
theorem c100_65_fails : ∃ r0 r1, new .le c12buf = .ok r0 ∧ new .be c12buf = .ok r1 ∧
    get_bits_64 .le r0 65 = .error .shift ∧ (get_bits_64 .be r1 65).toOption.map (·.1) = some (-1) := by
  refine ⟨_, _, rfl, rfl, ?_⟩
  decide

end Verif.BitRead
