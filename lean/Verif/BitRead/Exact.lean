import Verif.BitRead.Props

/-!
# The bit readers on every buffer and for every history, also at and behind the end of the buffer

The specification is a cursor that knows how much of the buffer has been loaded. There is no cache and no byte
order in it. From it follow C97 (how much padding is needed) and C98 (skips past the end).
-/

namespace Verif.BitRead
open Verif Verif.Bytes

/-- A cursor: the next byte to load, the end of the loaded bytes, and the position (in bits) of the next loaded bit. -/
structure Cur where
  idx : Nat
  lim : Nat
  src : Nat
  deriving DecidableEq, Repr

namespace Cur

/-- Loaded bits not yet read. -/
def left (c : Cur) : Nat := 8 * c.lim - c.src

/-- `k` more bytes are loaded, if at least eight are there. -/
def load (len k : Nat) (c : Cur) : Cur :=
  if c.idx + 8 ≤ len then { c with idx := c.idx + k, lim := c.lim + k } else c

/-- Loaded bits are passed over, as far as there are any. -/
def drop (c : Cur) (n : Nat) : Cur := { c with src := min (c.src + n) (8 * c.lim) }

/-- A skip: within the loaded bits; or beyond, jumping over whole bytes when it is longer than 64 bits, with loading
eight bytes at the place it leads to. When these are not there, the odd rest is taken twice from the loaded bits. -/
def skip (len : Nat) (c : Cur) (n : Nat) : Cur :=
  if n ≤ c.left then c.drop n
  else
    let m := n - c.left
    let jump := if m > 64 then m / 8 else 0
    let rest := m - 8 * jump
    if c.idx + jump + 8 ≤ len then
      { idx := c.idx + jump + 8, lim := c.idx + jump + 8, src := 8 * (c.idx + jump) + rest }
    else { c with idx := c.idx + jump }.drop (2 * rest)

/-- What is loaded before a call takes its bits. -/
def prepare (len : Nat) (c : Cur) : Op → Cur
  | .getBit | .peekBit => if c.left = 0 then c.load len 8 else c
  | .get64 n | .peek64 n => if c.left < n then c.load len 8 else c
  | .get32 n | .peek32 n => if n ≠ 0 ∧ c.left ≤ n then c.load len 4 else c
  | .skip _ | .align => c

/-- The cursor after a call. -/
def next (len : Nat) (c : Cur) : Op → Cur
  | .getBit => (c.prepare len .getBit).drop 1
  | .get64 n => (c.prepare len (.get64 n)).drop n
  | .get32 n => (c.prepare len (.get32 n)).drop n
  | .skip n => c.skip len n
  | .align => c.drop (c.left % 8)
  | .peekBit | .peek32 _ | .peek64 _ => c

/-- The value a call returns: that of the bits from `src` on in the loaded bytes, zeros behind them. -/
def value (e : Endian) (buf : List U8) (c : Cur) (op : Op) : Option Nat :=
  specVal e (buf.take (c.prepare buf.length op).lim) c.src op

/-- The cursor of a new reader. -/
def start (len : Nat) : Cur := load len 8 ⟨0, 0, 0⟩

/-- Results and final cursor of a history. -/
def run (e : Endian) (buf : List U8) : Cur → List Op → List (Option Nat) × Cur
  | c, [] => ([], c)
  | c, op :: ops =>
    let (vs, d) := run e buf (c.next buf.length op) ops
    (c.value e buf op :: vs, d)

end Cur

/-- The same reader over other data. -/
def onto (r : Reader) (b : List U8) (i : Nat) : Reader := { r with buffer := b, index := i }

/-- The reader holds what the cursor says. -/
structure Follows (e : Endian) (r : Reader) (c : Cur) : Prop where
  idx : r.index = c.idx
  lim_le : c.lim ≤ r.buffer.length
  lim_idx : c.lim ≤ c.idx
  more : c.idx + 8 ≤ r.buffer.length → c.lim = c.idx
  synced : Synced e (onto r (r.buffer.take c.lim) c.lim) c.src

theorem bit_take (e : Endian) (buf : List U8) (k q : Nat) :
    bit e (buf.take k) q = lbit e buf (k * 8) q := by
  unfold lbit
  by_cases h : q < k * 8
  · simp only [h, decide_true, Bool.true_and]
    unfold bit
    have : (buf.take k).getD (q / 8) 0 = buf.getD (q / 8) 0 := by
      simp only [List.getD_eq_getElem?_getD]
      rw [List.getElem?_take_of_lt (by omega)]
    rw [this]
  · simp only [h, decide_false, Bool.false_and]
    unfold bit
    have : (buf.take k).getD (q / 8) 0 = 0 := by
      simp only [List.getD_eq_getElem?_getD]
      rw [List.getElem?_eq_none (by rw [List.length_take]; omega)]
      rfl
    rw [this]
    cases e <;> simp

theorem ReadBits.toNat_take {e : Endian} {buf : List U8} {p n k w : Nat} {v : BitVec w}
    (h : ReadBits e buf p n (k * 8) v) : v.toNat = valueAt e (buf.take k) p n := by
  rw [valueAt_eq]
  apply toNat_of_bits
  intro i
  rw [h i, bit_take]

/-- A reader in step, seen as following a cursor. -/
theorem Synced.follows {e r p} (h : Synced e r p) : Follows e r ⟨r.index, r.index, p⟩ := by
  have hp := h.pos
  refine ⟨rfl, h.idx_le, Nat.le_refl _, fun _ => rfl, ⟨h.left_le, hp, ?_, ?_, h.zero⟩⟩
  · simp only [onto, List.length_take]
    have := h.idx_le
    omega
  · intro j hj
    simp only [onto] at hj ⊢
    rw [h.real j hj, bit_take, lbit_lt (by omega)]

theorem Follows.left {e r c} (h : Follows e r c) : r.left = c.left ∧ c.src ≤ 8 * c.lim ∧ r.left ≤ 64 := by
  have hp := h.synced.pos
  have hl := h.synced.left_le
  simp only [onto] at hp hl
  unfold Cur.left
  omega

/-- As long as more can be loaded the reader is in step. -/
theorem Follows.step_in {e r c} (h : Follows e r c) (hc : c.lim = c.idx) : Synced e r c.src := by
  have hs := h.synced
  have hp := hs.pos
  simp only [onto] at hp
  have hi := h.idx
  have hlen := h.lim_le
  refine ⟨hs.left_le, by omega, by omega, ?_, hs.zero⟩
  intro j hj
  have := hs.real j hj
  simp only [onto] at this
  rw [this, bit_take, lbit_lt (by omega)]

theorem Follows.same {e r c r'} (h : Follows e r c) (hb : r'.buffer = r.buffer) (hi : r'.index = r.index) {q : Nat}
    (hs : Synced e (onto r' (r.buffer.take c.lim) c.lim) q) : Follows e r' { c with src := q } :=
  ⟨by rw [hi]; exact h.idx, by rw [hb]; exact h.lim_le, h.lim_idx, by rw [hb]; exact h.more, by rw [hb]; exact hs⟩

theorem onto_onto (r : Reader) (b b' : List U8) (i i' : Nat) : onto (onto r b' i') b i = onto r b i := rfl

theorem onto_self (r : Reader) : onto r r.buffer r.index = r := rfl

theorem onto_eq (r : Reader) {b : List U8} {i : Nat} (hb : r.buffer = b) (hi : r.index = i) : onto r b i = r := by
  subst hb hi; rfl

theorem skipRem_onto (e : Endian) (r : Reader) (b : List U8) (i n : Nat) :
    skipRem e (onto r b i) n = onto (skipRem e r n) b i := by
  cases e <;> rfl

theorem peekVal_onto (e : Endian) (r : Reader) (b : List U8) (i n : Nat) :
    peekVal e (onto r b i) n = peekVal e r n := by
  cases e <;> rfl

theorem getVal_onto (e : Endian) (r : Reader) (b : List U8) (i n : Nat) :
    getVal e r n = (getVal e (onto r b i) n).map fun x => (x.1, onto x.2 r.buffer r.index) := by
  unfold getVal
  rw [peekVal_onto, skipRem_onto]
  cases peekVal e r n with
  | error _ => rfl
  | ok v =>
    show Except.ok (v, skipRem e r n) = Except.ok (v, onto (skipRem e r n) r.buffer r.index)
    rw [onto_eq _ (by simp) (by simp)]

/-- When neither reader can load anything, only the cache matters. -/
theorem refill64_onto (e : Endian) (r : Reader) (b : List U8) (i : Nat) (h1 : canRefill r = false)
    (h2 : b.length < i + 8) : refill64 e r = .ok r ∧ refill64 e (onto r b i) = .ok (onto r b i) ∧
      refill32 e r = .ok r ∧ refill32 e (onto r b i) = .ok (onto r b i) := by
  have : canRefill (onto r b i) = false := decide_eq_false (by simp only [onto]; omega)
  exact ⟨refill64_no e r h1, refill64_no e _ this, refill32_no e r h1, refill32_no e _ this⟩

theorem getBit_onto (e : Endian) (r : Reader) (b : List U8) (i : Nat) (h1 : canRefill r = false)
    (h2 : b.length < i + 8) :
    get_bit e r = (get_bit e (onto r b i)).map fun x => (x.1, onto x.2 r.buffer r.index) := by
  obtain ⟨a1, a2, _, _⟩ := refill64_onto e r b i h1 h2
  unfold get_bit
  rw [a1, a2]
  simp only [ite_self, ok_bind]
  rw [getVal_onto e r b i]
  cases getVal e (onto r b i) 1 <;> rfl

theorem get32_onto (e : Endian) (r : Reader) (b : List U8) (i n : Nat) (h1 : canRefill r = false)
    (h2 : b.length < i + 8) :
    get_bits_32 e r n = (get_bits_32 e (onto r b i) n).map fun x => (x.1, onto x.2 r.buffer r.index) := by
  obtain ⟨_, _, a1, a2⟩ := refill64_onto e r b i h1 h2
  unfold get_bits_32
  rw [a1, a2]
  by_cases h0 : n = 0
  · simp only [h0, if_true]; rfl
  · simp only [h0, if_false, ite_self, ok_bind]
    rw [getVal_onto e r b i]
    cases getVal e (onto r b i) n <;> rfl

theorem get64_onto (e : Endian) (r : Reader) (b : List U8) (i n : Nat) (h1 : canRefill r = false)
    (h2 : b.length < i + 8) :
    get_bits_64 e r n = (get_bits_64 e (onto r b i) n).map fun x => (x.1, onto x.2 r.buffer r.index) := by
  unfold get_bits_64
  by_cases h0 : n = 0
  · simp only [h0, if_true]; rfl
  · simp only [h0, if_false]
    by_cases hl : r.left < n
    · have hl' : (onto r b i).left < n := hl
      simp only [hl, hl', if_true]
      have el : (onto r b i).left = r.left := rfl
      rw [el]
      rw [getVal_onto e r b i r.left]
      unfold getVal
      cases hp : peekVal e (onto r b i) r.left with
      | error _ => rfl
      | ok v =>
        simp only [Except.map, ok_bind, pure_eq_ok, skipRem_onto, onto_onto]
        rw [onto_eq (skipRem e r r.left) (by simp) (by simp)]
        obtain ⟨c1, c2, _, _⟩ := refill64_onto e (skipRem e r r.left) b i (by simpa [canRefill] using h1) h2
        rw [c1, c2]
        simp only [ok_bind, peekVal_onto]
        cases peekVal e (skipRem e r r.left) (n - r.left) with
        | error _ => rfl
        | ok w =>
          simp only [ok_bind]
          cases mergeVal e w v r.left (n - r.left) with
          | error _ => rfl
          | ok m =>
            simp only [ok_bind]
            rw [skipRem_onto, onto_onto, onto_eq _ (by simp) (by simp)]
    · have hl' : ¬ (onto r b i).left < n := hl
      simp only [hl, hl', if_false, ok_bind]
      rw [getVal_onto e r b i]
      cases getVal e (onto r b i) n with
      | error _ => rfl
      | ok x =>
        simp only [Except.map, ok_bind]
        cases mergeVal e x.1 0 0 n <;> rfl

theorem Cur.drop_drop (c : Cur) (a b : Nat) : (c.drop a).drop b = c.drop (a + b) := by
  simp only [Cur.drop]; congr 1; omega

theorem Follows.canRefill {e r c} (h : Follows e r c) : canRefill r = decide (c.idx + 8 ≤ r.buffer.length) := by
  unfold BitRead.canRefill; rw [h.idx]

theorem Synced.after {e : Endian} {c : Cur} {r' : Reader} (hc : c.lim = c.idx) {k n : Nat}
    (hi : r'.index = c.idx + k) (hs : Synced e r' (min (c.src + n) (r'.index * 8))) :
    Follows e r' (Cur.drop { c with idx := c.idx + k, lim := c.lim + k } n) := by
  have := hs.follows
  have hd : (Cur.drop { c with idx := c.idx + k, lim := c.lim + k } n) =
      ⟨r'.index, r'.index, min (c.src + n) (r'.index * 8)⟩ := by
    simp only [Cur.drop]
    congr 1 <;> omega
  rw [hd]
  exact this

/-- Once nothing can be loaded any more, the reader is one over the loaded bytes only. -/
theorem Follows.stuck {e r c} (h : Follows e r c) (hc : ¬ c.idx + 8 ≤ r.buffer.length) :
    BitRead.canRefill r = false ∧ (r.buffer.take c.lim).length < c.lim + 8 ∧
      BitRead.canRefill (onto r (r.buffer.take c.lim) c.lim) = false := by
  have hlen : (r.buffer.take c.lim).length = c.lim := by
    rw [List.length_take]; have := h.lim_le; omega
  exact ⟨by rw [h.canRefill]; exact decide_eq_false hc, by omega,
    decide_eq_false (by simp only [onto, hlen]; omega)⟩

/-- What a read of that reader means for the original one. -/
theorem Follows.back {e r c r'} (h : Follows e r c) (hb : r'.buffer = r.buffer.take c.lim) (hi : r'.index = c.lim)
    {n : Nat} (hs : Synced e r' (min (c.src + n) (r'.index * 8))) :
    Follows e (onto r' r.buffer r.index) (c.drop n) := by
  refine h.same (r' := onto r' r.buffer r.index) rfl rfl (q := min (c.src + n) (8 * c.lim)) ?_
  rw [onto_onto, onto_eq r' hb hi, Nat.mul_comm 8, ← hi]
  exact hs

theorem get64_follows {e r c} (h : Follows e r c) {n : Nat} (hn : n ≤ 64) :
    ∃ v r', get_bits_64 e r n = .ok (v, r') ∧ r'.buffer = r.buffer ∧
      Follows e r' (c.next r.buffer.length (.get64 n)) ∧
      v.toNat = valueAt e (r.buffer.take (c.prepare r.buffer.length (.get64 n)).lim) c.src n := by
  obtain ⟨hl, hsrc, _⟩ := h.left
  simp only [Cur.next, Cur.prepare, Cur.load]
  by_cases hc : c.idx + 8 ≤ r.buffer.length
  · have hlim := h.more hc
    obtain ⟨v, r', a1, a2, a3, a4, a5⟩ := get64_spec (h.step_in hlim) hn
    have hcr : canRefill r = true := by rw [h.canRefill]; exact decide_eq_true hc
    rw [hcr, hl, h.idx] at a3
    simp only [and_true] at a3
    simp only [hc, if_true]
    by_cases hlt : c.left < n
    · simp only [hlt, if_true] at a3 ⊢
      exact ⟨v, r', a1, a2, a4.after hlim a3, by rw [hlim, ← a3]; exact a5.toNat_take⟩
    · simp only [hlt, if_false] at a3 ⊢
      exact ⟨v, r', a1, a2, a4.after hlim (k := 0) a3, by rw [hlim, ← a3]; exact a5.toNat_take⟩
  · obtain ⟨s1, s2, s3⟩ := h.stuck hc
    obtain ⟨v, r', a1, a2, a3, a4, a5⟩ := get64_spec h.synced hn
    rw [s3] at a3
    simp only [Bool.false_eq_true, and_false, if_false] at a3
    have e3 : r'.index = c.lim := a3
    simp only [hc, if_false, ite_self]
    refine ⟨v, onto r' r.buffer r.index, ?_, rfl, h.back a2 e3 a4, ?_⟩
    · rw [get64_onto e r (r.buffer.take c.lim) c.lim n s1 s2, a1]; rfl
    · rw [e3] at a5
      rw [a5.toNat_take]
      simp only [onto, List.take_take, Nat.min_self]

theorem get32_follows {e r c} (h : Follows e r c) {n : Nat} (hn : n ≤ 32) :
    ∃ v r', get_bits_32 e r n = .ok (v, r') ∧ r'.buffer = r.buffer ∧
      Follows e r' (c.next r.buffer.length (.get32 n)) ∧
      v.toNat = valueAt e (r.buffer.take (c.prepare r.buffer.length (.get32 n)).lim) c.src n := by
  obtain ⟨hl, hsrc, _⟩ := h.left
  simp only [Cur.next, Cur.prepare, Cur.load]
  by_cases hc : c.idx + 8 ≤ r.buffer.length
  · have hlim := h.more hc
    obtain ⟨v, r', a1, a2, a3, a4, a5⟩ := get32_spec (h.step_in hlim) hn
    have hcr : canRefill r = true := by rw [h.canRefill]; exact decide_eq_true hc
    rw [hcr, hl, h.idx] at a3
    simp only [and_true] at a3
    simp only [hc, if_true]
    by_cases hlt : n ≠ 0 ∧ c.left ≤ n
    · simp only [if_pos hlt] at a3 ⊢
      exact ⟨v, r', a1, a2, a4.after hlim a3, by rw [hlim, ← a3]; exact a5.toNat_take⟩
    · simp only [if_neg hlt] at a3 ⊢
      exact ⟨v, r', a1, a2, a4.after hlim (k := 0) a3, by rw [hlim, ← a3]; exact a5.toNat_take⟩
  · obtain ⟨s1, s2, s3⟩ := h.stuck hc
    obtain ⟨v, r', a1, a2, a3, a4, a5⟩ := get32_spec h.synced hn
    rw [s3] at a3
    simp only [Bool.false_eq_true, and_false, if_false] at a3
    have e3 : r'.index = c.lim := a3
    simp only [hc, if_false, ite_self]
    refine ⟨v, onto r' r.buffer r.index, ?_, rfl, h.back a2 e3 a4, ?_⟩
    · rw [get32_onto e r (r.buffer.take c.lim) c.lim n s1 s2, a1]; rfl
    · rw [e3] at a5
      rw [a5.toNat_take]
      simp only [onto, List.take_take, Nat.min_self]

theorem getBit_follows {e r c} (h : Follows e r c) :
    ∃ v r', get_bit e r = .ok (v, r') ∧ r'.buffer = r.buffer ∧
      Follows e r' (c.next r.buffer.length .getBit) ∧
      v.toNat = valueAt e (r.buffer.take (c.prepare r.buffer.length .getBit).lim) c.src 1 := by
  obtain ⟨hl, hsrc, _⟩ := h.left
  simp only [Cur.next, Cur.prepare, Cur.load]
  by_cases hc : c.idx + 8 ≤ r.buffer.length
  · have hlim := h.more hc
    obtain ⟨v, r', a1, a2, a3, a4, a5⟩ := getBit_spec (h.step_in hlim)
    have hcr : canRefill r = true := by rw [h.canRefill]; exact decide_eq_true hc
    rw [hcr, hl, h.idx] at a3
    simp only [and_true] at a3
    simp only [hc, if_true]
    by_cases hlt : c.left = 0
    · simp only [if_pos hlt] at a3 ⊢
      exact ⟨v, r', a1, a2, a4.after hlim a3, by rw [hlim, ← a3, valueAt_one, bit_take, a5]⟩
    · simp only [if_neg hlt] at a3 ⊢
      exact ⟨v, r', a1, a2, a4.after hlim (k := 0) a3, by rw [hlim, ← a3, valueAt_one, bit_take, a5]⟩
  · obtain ⟨s1, s2, s3⟩ := h.stuck hc
    obtain ⟨v, r', a1, a2, a3, a4, a5⟩ := getBit_spec h.synced
    rw [s3] at a3
    simp only [Bool.false_eq_true, and_false, if_false] at a3
    have e3 : r'.index = c.lim := a3
    simp only [hc, if_false, ite_self]
    refine ⟨v, onto r' r.buffer r.index, ?_, rfl, h.back a2 e3 a4, ?_⟩
    · rw [getBit_onto e r (r.buffer.take c.lim) c.lim s1 s2, a1]; rfl
    · rw [a5, valueAt_one, e3, bit_take]
      simp only [onto]
      rw [← bit_take, ← bit_take, List.take_take, Nat.min_self]

theorem skipRem_follows {e r c} (h : Follows e r c) {n : Nat} (hn : n ≤ 64) : Follows e (skipRem e r n) (c.drop n) := by
  obtain ⟨hl, hsrc, _⟩ := h.left
  have := h.synced.skipRem hn
  rw [skipRem_onto] at this
  refine h.same (by simp) (by simp) ?_
  have hp : c.src + min n (onto r (r.buffer.take c.lim) c.lim).left = min (c.src + n) (8 * c.lim) := by
    show c.src + min n r.left = _
    unfold Cur.left at hl
    omega
  rw [← hp]
  exact this

theorem skip_follows {e r c} (h : Follows e r c) (n : Nat) :
    ∃ r', skip_bits e r n = .ok r' ∧ r'.buffer = r.buffer ∧ Follows e r' (c.skip r.buffer.length n) := by
  obtain ⟨hl, hsrc, h64⟩ := h.left
  unfold Cur.skip
  by_cases hn : n ≤ c.left
  · simp only [hn, if_true]
    exact ⟨skipRem e r n, by simp [skip_bits, show ¬ r.left < n by omega], by simp, skipRem_follows h (by omega)⟩
  · simp only [hn, if_false]
    have hidx := h.idx
    by_cases hc : c.idx + (if n - c.left > 64 then (n - c.left) / 8 else 0) + 8 ≤ r.buffer.length
    · simp only [hc, if_true]
      have hlim := h.more (by omega)
      have hs := h.step_in hlim
      have hp := hs.pos
      have hsk : skipIndex r n = c.idx + (if n - c.left > 64 then (n - c.left) / 8 else 0) := by
        unfold skipIndex; rw [hl, hidx]; split <;> rfl
      obtain ⟨r', a1, a2, a3, a4⟩ := skip_big hs (n := n) (by omega) (by rw [hsk]; exact hc)
      refine ⟨r', a1, a2, ?_⟩
      have := a4.follows
      rw [a3, hsk] at this
      have e1 : c.src + n = 8 * (c.idx + (if n - c.left > 64 then (n - c.left) / 8 else 0)) +
          (n - c.left - 8 * (if n - c.left > 64 then (n - c.left) / 8 else 0)) := by
        split <;> omega
      rw [e1] at this
      exact this
    · simp only [hc, if_false]
      generalize hj : (if n - c.left > 64 then (n - c.left) / 8 else 0) = j at hc ⊢
      generalize hr : n - c.left - 8 * j = rest
      have hrest : rest ≤ 64 := by split at hj <;> omega
      have h1 : Follows e (onto r r.buffer (r.index + j)) { c with idx := c.idx + j } :=
        ⟨by simp only [onto, hidx], h.lim_le, by have := h.lim_idx; simp only; omega,
          fun hx => absurd hx hc, h.synced⟩
      have h2 := skipRem_follows (skipRem_follows h1 hrest) hrest
      rw [Cur.drop_drop, ← Nat.two_mul] at h2
      refine ⟨_, ?_, ?_, h2⟩
      · have hcr : canRefill (skipRem e (onto r r.buffer (r.index + j)) rest) = false :=
          decide_eq_false (by simp only [skipRem_index, skipRem_buffer, onto]; omega)
        have hrf := refill64_no e _ hcr
        unfold skip_bits
        rw [if_pos (by omega)]
        by_cases h65 : n - c.left > 64
        · rw [if_pos h65] at hj
          have h65' : n - r.left > 64 := by omega
          have e1 : n - r.left - j * 8 = rest := by omega
          have e2 : (n - r.left) / 8 = j := by omega
          simp only [h65', if_true, e2, e1]
          have : ({ r with index := r.index + j } : Reader) = onto r r.buffer (r.index + j) := rfl
          rw [this, hrf]; rfl
        · rw [if_neg h65] at hj
          have h65' : ¬ n - r.left > 64 := by omega
          subst hj
          have e1 : n - r.left = rest := by omega
          simp only [h65', if_false]
          rw [e1]
          have : r = onto r r.buffer (r.index + 0) := rfl
          rw [← this] at hrf
          rw [hrf]; rfl
      · simp [onto]

/-- **Every call, in every state that follows a cursor**, returns what the cursor says and follows it. -/
theorem step_follows {e r c} (h : Follows e r c) (op : Op) (hw : widthOk op) :
    ∃ r', step e r op = .ok (c.value e r.buffer op, r') ∧ r'.buffer = r.buffer ∧
      Follows e r' (c.next r.buffer.length op) := by
  cases op with
  | getBit =>
    obtain ⟨v, r', a1, a2, a3, a4⟩ := getBit_follows h
    exact ⟨r', by simp only [step, a1, ok_bind, pure_eq_ok, Cur.value, specVal, a4], a2, a3⟩
  | get32 n =>
    obtain ⟨v, r', a1, a2, a3, a4⟩ := get32_follows h (n := n) hw
    exact ⟨r', by simp only [step, a1, ok_bind, pure_eq_ok, Cur.value, specVal, a4], a2, a3⟩
  | get64 n =>
    obtain ⟨v, r', a1, a2, a3, a4⟩ := get64_follows h (n := n) hw
    exact ⟨r', by simp only [step, a1, ok_bind, pure_eq_ok, Cur.value, specVal, a4], a2, a3⟩
  | skip n =>
    obtain ⟨r', a1, a2, a3⟩ := skip_follows h n
    exact ⟨r', by simp only [step, a1, ok_bind, pure_eq_ok, Cur.value, specVal], a2, a3⟩
  | align =>
    obtain ⟨r', a1, a2, a3⟩ := skip_follows h (r.left &&& 7)
    have e1 : r.left &&& 7 = r.left % 8 := Nat.and_two_pow_sub_one_eq_mod r.left 3
    refine ⟨r', by simp only [step, align_bits, a1, ok_bind, pure_eq_ok, Cur.value, specVal], a2, ?_⟩
    rw [e1, h.left.1, Cur.skip, if_pos (Nat.mod_le _ _)] at a3
    exact a3
  | peekBit =>
    obtain ⟨v, r', a1, a2, a3, a4⟩ := getBit_follows h
    exact ⟨r, by simp only [step, peek_bit, a1, ok_bind, pure_eq_ok, Cur.value, specVal, a4, Cur.prepare], rfl, h⟩
  | peek32 n =>
    obtain ⟨v, r', a1, a2, a3, a4⟩ := get32_follows h (n := n) hw
    exact ⟨r, by simp only [step, peek_bits_32, a1, ok_bind, pure_eq_ok, Cur.value, specVal, a4, Cur.prepare], rfl, h⟩
  | peek64 n =>
    obtain ⟨v, r', a1, a2, a3, a4⟩ := get64_follows h (n := n) hw
    exact ⟨r, by simp only [step, peek_bits_64, a1, ok_bind, pure_eq_ok, Cur.value, specVal, a4, Cur.prepare], rfl, h⟩

theorem run_follows {e r c} (h : Follows e r c) (ops : List Op) (hw : ∀ op ∈ ops, widthOk op) :
    ∃ r', run e r ops = .ok ((Cur.run e r.buffer c ops).1, r') ∧ r'.buffer = r.buffer ∧
      Follows e r' (Cur.run e r.buffer c ops).2 := by
  induction ops generalizing r c with
  | nil => exact ⟨r, rfl, rfl, h⟩
  | cons op ops ih =>
    obtain ⟨r1, a1, a2, a3⟩ := step_follows h op (hw op (by simp))
    obtain ⟨r2, b1, b2, b3⟩ := ih a3 (fun o ho => hw o (by simp [ho]))
    rw [a2] at b1 b3
    exact ⟨r2, by simp only [run, a1, b1, ok_bind, pure_eq_ok, Cur.run], b2.trans a2, by simpa only [Cur.run] using b3⟩

theorem new_follows (e : Endian) (buf : List U8) :
    ∃ r, new e buf = .ok r ∧ r.buffer = buf ∧ Follows e r (Cur.start buf.length) := by
  obtain ⟨r, h1, h2, h3, h4⟩ := new_spec e buf
  refine ⟨r, h1, h2, ?_⟩
  have := h4.follows
  have he : Cur.start buf.length = ⟨r.index, r.index, 0⟩ := by
    unfold Cur.start Cur.load
    rw [h3]
    by_cases h8 : 8 ≤ buf.length <;> simp [h8]
  rw [he]; exact this

theorem Follows.consumed {e r c} (h : Follows e r c) : consumed r = .ok (8 * c.idx - c.left) := by
  obtain ⟨hl, hsrc, _⟩ := h.left
  have := h.lim_idx
  unfold BitRead.consumed
  rw [h.idx, hl, Nat.mul_comm, usub_ok (by unfold Cur.left; omega)]

theorem Follows.available {e r c} (h : Follows e r c) :
    available r = if c.idx ≤ r.buffer.length then .ok (8 * (r.buffer.length - c.idx) + c.left) else .error .overflow := by
  obtain ⟨hl, hsrc, _⟩ := h.left
  unfold BitRead.available
  rw [h.idx, hl]
  by_cases hc : c.idx ≤ r.buffer.length
  · rw [if_pos hc, usub_ok hc]
    simp only [ok_bind, pure_eq_ok, Nat.mul_comm]
  · rw [if_neg hc]
    simp [usub, hc]

/-- **C12, partial** What the readers do for every buffer and every history whatsoever (each call with a width that
fits): all results, `consumed` and `available` are those of the cursor, whose only knowledge of the buffer is which
bytes have been loaded. Missing for C12: the cursor gives up bytes at the end, for which C12 is false. -/
theorem c12_exact_partial (e : Endian) (buf : List U8) (ops : List Op) (hw : ∀ op ∈ ops, widthOk op) :
    ∃ r0 r, new e buf = .ok r0 ∧ run e r0 ops = .ok ((Cur.run e buf (.start buf.length) ops).1, r) ∧
      consumed r = .ok (8 * (Cur.run e buf (.start buf.length) ops).2.idx -
        (Cur.run e buf (.start buf.length) ops).2.left) ∧
      available r = if (Cur.run e buf (.start buf.length) ops).2.idx ≤ buf.length then
        .ok (8 * (buf.length - (Cur.run e buf (.start buf.length) ops).2.idx) +
          (Cur.run e buf (.start buf.length) ops).2.left) else .error .overflow := by
  obtain ⟨r0, h1, h2, h3⟩ := new_follows e buf
  obtain ⟨r, a1, a2, a3⟩ := run_follows h3 ops hw
  rw [h2] at a1 a2 a3
  exact ⟨r0, r, h1, a1, a3.consumed, by rw [a3.available, a2]⟩

example : (∀ op ∈ [Op.get32 7, .skip 300, .get64 64, .align, .getBit], widthOk op) ∧
    (Cur.run .le sample (.start 24) [.get32 7, .skip 300, .get64 64]).1 =
      [some 90, none, some (valueAt .le (sample.take 8) 13 64)] := by decide

/-! ### C97: how much padding is needed -/

/-- The padding a call needs behind the last bit it reads: seven bytes, and one bit more for a skip. -/
def paddingOf : Op → Nat
  | .skip _ => 57
  | _ => 56

/-- The history leaves that much of the buffer alone. -/
def padded (len : Nat) (p : Nat) : List Op → Prop
  | [] => True
  | op :: ops => widthOk op ∧ reach p op + paddingOf op ≤ 8 * len ∧ padded len (nextPos p op) ops

instance instDecPadded (len : Nat) : (p : Nat) → (ops : List Op) → Decidable (padded len p ops)
  | _, [] => isTrue trivial
  | p, op :: ops =>
    have := instDecPadded len (nextPos p op) ops
    by unfold padded; infer_instance

theorem valueAt_take (e : Endian) (buf : List U8) (k p n : Nat) (h : p + n ≤ 8 * k) :
    valueAt e (buf.take k) p n = valueAt e buf p n := by
  rw [valueAt_eq, valueAt_eq]
  apply bitsVal_congr
  intro j hj
  rw [bit_take, lbit_lt (by omega)]

theorem Cur.step_padded (e : Endian) (buf : List U8) (i p : Nat) (hp : p ≤ 8 * i) (op : Op) (hw : widthOk op)
    (hr : reach p op + paddingOf op ≤ 8 * buf.length) :
    (⟨i, i, p⟩ : Cur).value e buf op = specVal e buf p op ∧
      ∃ i', nextPos p op ≤ 8 * i' ∧ (⟨i, i, p⟩ : Cur).next buf.length op = ⟨i', i', nextPos p op⟩ := by
  have key : ∀ n k, n ≤ 8 * k → k ≤ 8 → p + n + 56 ≤ 8 * buf.length → ∀ (b : Prop) [Decidable b],
      (8 * i - p < n → b) → (b → 8 * i - p ≤ n) →
      ∃ i', p + n ≤ 8 * i' ∧
        (if b then (⟨i, i, p⟩ : Cur).load buf.length k else ⟨i, i, p⟩) = ⟨i', i', p⟩ := by
    intro n k hk hk8 hn b _ hb1 hb2
    by_cases hb : b
    · rw [if_pos hb]
      unfold Cur.load
      by_cases hc : i + 8 ≤ buf.length
      · simp only [hc, if_true]
        exact ⟨i + k, by omega, rfl⟩
      · simp only [hc, if_false]
        exact ⟨i, by omega, rfl⟩
    · rw [if_neg hb]
      exact ⟨i, by
        by_cases h : 8 * i - p < n
        · exact absurd (hb1 h) hb
        · omega, rfl⟩
  have fin : ∀ i' n, p + n ≤ 8 * i' → (⟨i', i', p⟩ : Cur).drop n = ⟨i', i', p + n⟩ := by
    intro i' n h
    simp only [Cur.drop]
    congr 1
    omega
  cases op with
  | getBit =>
    obtain ⟨i', h1, h2⟩ := key 1 8 (by omega) (by omega) hr ((⟨i, i, p⟩ : Cur).left = 0)
      (by unfold Cur.left; simp only; omega) (by unfold Cur.left; simp only; omega)
    refine ⟨?_, i', h1, ?_⟩
    · simp only [Cur.value, Cur.prepare, h2, specVal, valueAt_take _ _ _ _ _ h1]
    · simp only [Cur.next, Cur.prepare, h2, fin _ _ h1, nextPos]
  | peekBit =>
    obtain ⟨i', h1, h2⟩ := key 1 8 (by omega) (by omega) hr ((⟨i, i, p⟩ : Cur).left = 0)
      (by unfold Cur.left; simp only; omega) (by unfold Cur.left; simp only; omega)
    refine ⟨?_, i, hp, rfl⟩
    simp only [Cur.value, Cur.prepare, h2, specVal, valueAt_take _ _ _ _ _ h1]
  | get64 n =>
    obtain ⟨i', h1, h2⟩ := key n 8 (by simp only [widthOk] at hw; omega) (by omega) hr ((⟨i, i, p⟩ : Cur).left < n)
      (by unfold Cur.left; simp only; omega) (by unfold Cur.left; simp only; omega)
    refine ⟨?_, i', h1, ?_⟩
    · simp only [Cur.value, Cur.prepare, h2, specVal, valueAt_take _ _ _ _ _ h1]
    · simp only [Cur.next, Cur.prepare, h2, fin _ _ h1, nextPos]
  | peek64 n =>
    obtain ⟨i', h1, h2⟩ := key n 8 (by simp only [widthOk] at hw; omega) (by omega) hr ((⟨i, i, p⟩ : Cur).left < n)
      (by unfold Cur.left; simp only; omega) (by unfold Cur.left; simp only; omega)
    refine ⟨?_, i, hp, rfl⟩
    simp only [Cur.value, Cur.prepare, h2, specVal, valueAt_take _ _ _ _ _ h1]
  | get32 n =>
    obtain ⟨i', h1, h2⟩ := key n 4 (by simp only [widthOk] at hw; omega) (by omega) hr
      (n ≠ 0 ∧ (⟨i, i, p⟩ : Cur).left ≤ n)
      (by unfold Cur.left; simp only; omega) (by unfold Cur.left; simp only; omega)
    refine ⟨?_, i', h1, ?_⟩
    · simp only [Cur.value, Cur.prepare, h2, specVal, valueAt_take _ _ _ _ _ h1]
    · simp only [Cur.next, Cur.prepare, h2, fin _ _ h1, nextPos]
  | peek32 n =>
    obtain ⟨i', h1, h2⟩ := key n 4 (by simp only [widthOk] at hw; omega) (by omega) hr
      (n ≠ 0 ∧ (⟨i, i, p⟩ : Cur).left ≤ n)
      (by unfold Cur.left; simp only; omega) (by unfold Cur.left; simp only; omega)
    refine ⟨?_, i, hp, rfl⟩
    simp only [Cur.value, Cur.prepare, h2, specVal, valueAt_take _ _ _ _ _ h1]
  | align =>
    refine ⟨rfl, i, ?_, ?_⟩
    · simp only [nextPos, alignUp]; omega
    · have : p + (8 * i - p) % 8 = alignUp p := by unfold alignUp; omega
      simp only [Cur.next, Cur.left, fin i _ (show p + (8 * i - p) % 8 ≤ 8 * i by omega), nextPos, this]
  | skip n =>
    refine ⟨rfl, ?_⟩
    simp only [reach, paddingOf] at hr
    simp only [Cur.next, Cur.skip, nextPos]
    generalize hl : (⟨i, i, p⟩ : Cur).left = l
    have hl' : l = 8 * i - p := hl.symm
    by_cases hn : n ≤ l
    · simp only [hn, if_true]
      exact ⟨i, by omega, fin _ _ (by omega)⟩
    · simp only [hn, if_false]
      generalize hj : (if n - l > 64 then (n - l) / 8 else 0) = j
      have hj' : 8 * j ≤ n - l ∧ n - l < 8 * j + 65 ∧ (j ≠ 0 → n - l < 8 * j + 8) := by split at hj <;> omega
      have hc : i + j + 8 ≤ buf.length := by omega
      simp only [hc, if_true]
      refine ⟨i + j + 8, by omega, ?_⟩
      congr 1
      omega

theorem Cur.run_padded (e : Endian) (buf : List U8) (i p : Nat) (hp : p ≤ 8 * i) (ops : List Op)
    (hw : padded buf.length p ops) : ∃ i', (specRun e buf p ops).2 ≤ 8 * i' ∧
      Cur.run e buf ⟨i, i, p⟩ ops = ((specRun e buf p ops).1, ⟨i', i', (specRun e buf p ops).2⟩) := by
  induction ops generalizing i p with
  | nil => exact ⟨i, hp, rfl⟩
  | cons op ops ih =>
    obtain ⟨w1, w2, w3⟩ := hw
    obtain ⟨a1, j, a2, a3⟩ := Cur.step_padded e buf i p hp op w1 w2
    obtain ⟨i', b1, b2⟩ := ih j _ a2 w3
    exact ⟨i', b1, by simp only [Cur.run, a1, a3, b2, specRun]⟩

/-- **C97** Seven bytes of padding are enough for reads, peeks and alignment, and one bit more for skips: the eight
that the documentation asks for are never needed. -/
theorem c97_seven_bytes (e : Endian) (buf : List U8) (ops : List Op) (hw : padded buf.length 0 ops) :
    ∃ r0 r, new e buf = .ok r0 ∧ run e r0 ops = .ok ((specRun e buf 0 ops).1, r) ∧
      consumed r = .ok (specRun e buf 0 ops).2 := by
  obtain ⟨r0, h1, h2, h3⟩ := new_follows e buf
  have hs : ∃ i, Cur.start buf.length = ⟨i, i, 0⟩ := by
    unfold Cur.start Cur.load
    split
    · exact ⟨8, rfl⟩
    · exact ⟨0, rfl⟩
  obtain ⟨i, hi⟩ := hs
  rw [hi] at h3
  obtain ⟨i', b1, b2⟩ := Cur.run_padded e buf i 0 (by omega) ops hw
  have hok : ∀ op ∈ ops, widthOk op := by
    clear b1 b2
    generalize 0 = p at hw
    induction ops generalizing p with
    | nil => intro op h; exact absurd h (by simp)
    | cons o ops ih =>
      intro op h
      rcases List.mem_cons.mp h with rfl | h
      · exact hw.1
      · exact ih _ hw.2.2 op h
  obtain ⟨r, a1, a2, a3⟩ := run_follows h3 ops hok
  rw [h2, b2] at a1 a3
  refine ⟨r0, r, h1, a1, ?_⟩
  rw [a3.consumed]
  simp only [Cur.left]
  congr 1
  omega

/-- A history that C04 does not cover, because it reads into the eighth byte of padding; a byte less is too little. -/
example : padded 23 0 [.get64 64, .get64 60, .get32 4, .getBit, .peek64 0] = False ∧
    padded 24 0 [.get64 64, .get64 60, .get32 4, .getBit, .peek64 7] ∧ padded 24 0 [.skip 135] ∧
    ¬ within (List.replicate 24 0xff) 0 [.get64 64, .get64 60, .get32 4, .getBit, .peek64 7] := by
  refine ⟨by simp [padded, widthOk, reach, nextPos, paddingOf], by decide, by decide, by decide⟩

theorem bit_ones (e : Endian) {n i : Nat} (h : i < 8 * n) : bit e (List.replicate n 0xff) i = true := by
  have h1 : (List.replicate n (0xff : U8)).getD (i / 8) 0 = 0xff := by
    simp only [List.getD_eq_getElem?_getD]
    rw [List.getElem?_replicate_of_lt (by omega)]
    rfl
  unfold bit
  rw [h1]
  have h2 : ∀ j : Fin 8, (0xff : U8).getLsbD j = true ∧ (0xff : U8).getMsbD j = true := by decide
  have := h2 ⟨i % 8, Nat.mod_lt _ (by omega)⟩
  cases e
  · exact this.1
  · exact this.2

theorem Cur.words (e : Endian) (buf : List U8) (m : Nat) : ∀ j, 0 < j → 8 * (j + m) ≤ buf.length →
    (Cur.run e buf ⟨8 * j, 8 * j, 64 * j⟩ (List.replicate m (.get64 64))).2 =
      ⟨8 * (j + m), 8 * (j + m), 64 * (j + m)⟩ := by
  induction m with
  | zero => intro j _ _; rfl
  | succ m ih =>
    intro j hj hl
    have h1 : (⟨8 * j, 8 * j, 64 * j⟩ : Cur).next buf.length (.get64 64) =
        ⟨8 * (j + 1), 8 * (j + 1), 64 * (j + 1)⟩ := by
      have hlt : (⟨8 * j, 8 * j, 64 * j⟩ : Cur).left < 64 := by unfold Cur.left; simp only; omega
      have hc : 8 * j + 8 ≤ buf.length := by omega
      simp only [Cur.next, Cur.prepare, hlt, if_true, Cur.load, hc, Cur.drop]
      congr 1
      omega
    simp only [List.replicate_succ, Cur.run, h1]
    rw [ih (j + 1) (by omega) (by omega)]
    congr 1 <;> omega

/-- **C97** The bound for reads cannot be lowered, however long the stream: with 55 bits behind it, a bit that is 1
is read as 0. -/
theorem c97_read_tight (e : Endian) (k : Nat) (buf : List U8) (hb : buf = List.replicate (8 * k + 7) 0xff) :
    ∃ r0 vs r r', new e buf = .ok r0 ∧ run e r0 (List.replicate k (.get64 64)) = .ok (vs, r) ∧
      consumed r = .ok (64 * k) ∧ reach (64 * k) .getBit + 55 = 8 * buf.length ∧
      bit e buf (64 * k) = true ∧ step e r .getBit = .ok (some 0, r') := by
  have hlen : buf.length = 8 * k + 7 := by rw [hb, List.length_replicate]
  obtain ⟨r0, h1, h2, h3⟩ := new_follows e buf
  have hok : ∀ op ∈ List.replicate k (Op.get64 64), widthOk op := by
    intro op h
    rw [List.eq_of_mem_replicate h]
    exact Nat.le_refl 64
  obtain ⟨r, a1, a2, a3⟩ := run_follows h3 _ hok
  rw [h2] at a1 a2 a3
  have hcur : (Cur.run e buf (Cur.start buf.length) (List.replicate k (.get64 64))).2 = ⟨8 * k, 8 * k, 64 * k⟩ := by
    cases k with
    | zero =>
      have : ¬ 8 ≤ buf.length := by omega
      simp [Cur.run, Cur.start, Cur.load, this]
    | succ m =>
      have h8 : 8 ≤ buf.length := by omega
      have hs : Cur.start buf.length = ⟨8, 8, 0⟩ := by simp [Cur.start, Cur.load, h8]
      have h1 : (⟨8, 8, 0⟩ : Cur).next buf.length (.get64 64) = ⟨8 * 1, 8 * 1, 64 * 1⟩ := rfl
      rw [hs, List.replicate_succ]
      simp only [Cur.run, h1]
      rw [Cur.words e buf m 1 (by omega) (by omega)]
      congr 1 <;> omega
  rw [hcur] at a3
  obtain ⟨r', b1, b2, b3⟩ := step_follows a3 .getBit trivial
  refine ⟨r0, _, r, r', h1, a1, ?_, ?_, ?_, ?_⟩
  · rw [a3.consumed]
    simp only [Cur.left]
    congr 1; omega
  · simp only [reach, hlen]; omega
  · rw [hb]; exact bit_ones e (by omega)
  · rw [b1, a2]
    have hn : ¬ 8 * k + 8 ≤ buf.length := by omega
    simp only [Cur.value, Cur.prepare, Cur.load, hn, if_false, ite_self, specVal, valueAt_one, bit_take]
    rw [lbit_ge (by omega)]
    rfl

/-- **C97** Nor can that for skips: with 56 bits behind its end, a skip leads 64 bits less far than it should, and what
is read there is the beginning of the stream. -/
theorem c97_skip_tight (e : Endian) (k : Nat) (hk : 3 ≤ k) (buf : List U8) (hb : buf.length = 8 * k + 7) :
    ∃ r0 vs r r', new e buf = .ok r0 ∧ run e r0 [.skip (64 * k)] = .ok (vs, r) ∧
      reach 0 (.skip (64 * k)) + 56 = 8 * buf.length ∧ consumed r = .ok (64 * k - 64) ∧
      step e r (.get64 64) = .ok (some (valueAt e buf 0 64), r') := by
  obtain ⟨r0, h1, h2, h3⟩ := new_follows e buf
  have hs : Cur.start buf.length = ⟨8, 8, 0⟩ := by
    have : 8 ≤ buf.length := by omega
    simp [Cur.start, Cur.load, this]
  rw [hs] at h3
  obtain ⟨r, a1, a2, a3⟩ := run_follows h3 [.skip (64 * k)] (by simp [widthOk])
  rw [h2] at a1 a2 a3
  have hcur : (Cur.run e buf ⟨8, 8, 0⟩ [.skip (64 * k)]).2 = ⟨8 * k, 8, 0⟩ := by
    have hl : (⟨8, 8, 0⟩ : Cur).left = 64 := rfl
    simp only [Cur.run, Cur.next, Cur.skip, hl]
    have c1 : ¬ 64 * k ≤ 64 := by omega
    have c2 : 64 * k - 64 > 64 := by omega
    have c3 : (64 * k - 64) / 8 = 8 * k - 8 := by omega
    have c4 : ¬ 8 + (8 * k - 8) + 8 ≤ buf.length := by omega
    simp only [c1, c2, c3, c4, if_true, if_false, Cur.drop]
    congr 1 <;> omega
  rw [hcur] at a3
  obtain ⟨r', b1, b2, b3⟩ := step_follows a3 (.get64 64) (Nat.le_refl _)
  refine ⟨r0, _, r, r', h1, a1, ?_, ?_, ?_⟩
  · simp only [reach, hb]; omega
  · rw [a3.consumed]
    simp only [Cur.left]
    congr 1; omega
  · rw [b1, a2]
    have hl : ¬ (⟨8 * k, 8, 0⟩ : Cur).left < 64 := by unfold Cur.left; simp
    simp only [Cur.value, Cur.prepare, hl, if_false, specVal]
    rw [valueAt_take _ _ _ _ _ (by omega)]

example : ∃ buf : List U8, buf.length = 8 * 3 + 7 := ⟨List.replicate 31 0xff, by decide⟩

/-! ### C98: skips past the end -/

/-- **C98 fails** A skip past the end does not end the stream: one bit too many, and all but two of the last bits are
still there; they are read next, and `available` counts them. -/
theorem c98_fails (e : Endian) (buf : List U8) (hb : buf.length = 8) :
    ∃ r0 vs r r', new e buf = .ok r0 ∧ available r0 = .ok 64 ∧ run e r0 [.skip 65] = .ok (vs, r) ∧
      available r = .ok 62 ∧ consumed r = .ok 2 ∧
      step e r (.get64 62) = .ok (some (valueAt e buf 2 62), r') := by
  obtain ⟨r0, h1, h2, h3⟩ := new_follows e buf
  have hs : Cur.start buf.length = ⟨8, 8, 0⟩ := by rw [hb]; rfl
  rw [hs] at h3
  obtain ⟨r, a1, a2, a3⟩ := run_follows h3 [.skip 65] (by simp [widthOk])
  rw [h2] at a1 a2 a3
  have hcur : (Cur.run e buf ⟨8, 8, 0⟩ [.skip 65]).2 = ⟨8, 8, 2⟩ := by
    simp only [Cur.run, Cur.next, hb]; rfl
  rw [hcur] at a3
  obtain ⟨r', b1, b2, b3⟩ := step_follows a3 (.get64 62) (by simp [widthOk])
  refine ⟨r0, _, r, r', h1, ?_, a1, ?_, ?_, ?_⟩
  · rw [h3.available, h2, hb]; rfl
  · rw [a3.available, a2, hb]; rfl
  · rw [a3.consumed]; rfl
  · rw [b1, a2]
    have hl : ¬ (⟨8, 8, 2⟩ : Cur).left < 62 := by decide
    simp only [Cur.value, Cur.prepare, hl, if_false, specVal]
    rw [valueAt_take _ _ _ _ _ (by omega)]

theorem Reachable.follows {e buf r} (h : Reachable e buf r) : ∃ c, Follows e r c ∧ r.buffer = buf := by
  obtain ⟨r0, ops, vs, h1, h2, h3⟩ := h
  obtain ⟨r0', a1, a2, a3⟩ := new_follows e buf
  rw [h1] at a1
  cases a1
  obtain ⟨r', b1, b2, b3⟩ := run_follows a3 ops h2
  rw [h3] at b1
  cases b1
  exact ⟨_, b3, b2.trans a2⟩

theorem Follows.rest {e r c} (h : Follows e r c) : ∃ s, get_bits_64 e r r.left =
    .ok (BitVec.ofNat 64 (valueAt e r.buffer c.src r.left), s) := by
  obtain ⟨hl, hsrc, h64⟩ := h.left
  obtain ⟨v, s, a1, a2, a3, a4⟩ := get64_follows h (n := r.left) h64
  have hn : ¬ c.left < r.left := by omega
  simp only [Cur.prepare, hn, if_false] at a4
  rw [valueAt_take _ _ _ _ _ (by unfold Cur.left at hl; omega)] at a4
  refine ⟨s, ?_⟩
  rw [a1, ← a4]
  simp

/-- **C98, partial** What a skip past the loaded bits leaves, in any state reached by any history, when the eight bytes
it leads to are not there: of the `left` bits, all but the first `2 * rest`, where `rest` is the whole excess when that
is at most 64 bits and otherwise the excess modulo 8. Nothing is left, as C98 says, exactly when twice the rest is at
least `left`. Missing for C98: the other cases, in which it is false. -/
theorem c98_partial (e : Endian) (buf : List U8) (r : Reader) (hr : Reachable e buf r) (n rest jump : Nat)
    (hn : r.left < n) (hx : n - r.left = 8 * jump + rest)
    (hj : (n - r.left ≤ 64 ∧ jump = 0) ∨ (64 < n - r.left ∧ rest < 8))
    (hend : buf.length < r.index + jump + 8) :
    ∃ r' q s s', skip_bits e r n = .ok r' ∧ r'.index = r.index + jump ∧ r'.left = r.left - 2 * rest ∧
      get_bits_64 e r r.left = .ok (BitVec.ofNat 64 (valueAt e buf q r.left), s) ∧
      get_bits_64 e r' r'.left = .ok (BitVec.ofNat 64 (valueAt e buf (q + 2 * rest) r'.left), s') := by
  obtain ⟨c, hf, hb⟩ := hr.follows
  subst hb
  obtain ⟨hl, hsrc, h64⟩ := hf.left
  obtain ⟨r', a1, a2, a3⟩ := skip_follows hf n
  have hc : c.skip r.buffer.length n = { c with idx := c.idx + jump }.drop (2 * rest) := by
    unfold Cur.skip
    rw [if_neg (by omega), ← hl]
    have : (if n - r.left > 64 then (n - r.left) / 8 else 0) = jump := by split <;> omega
    simp only [this]
    have e2 : n - r.left - 8 * jump = rest := by omega
    rw [if_neg (by have := hf.idx; omega), e2]
  rw [hc] at a3
  have e1 : r'.left = r.left - 2 * rest := by
    rw [a3.left.1, hl]
    simp only [Cur.left, Cur.drop]
    omega
  obtain ⟨s, b1⟩ := hf.rest
  obtain ⟨s', b2⟩ := a3.rest
  refine ⟨r', c.src, s, s', a1, ?_, e1, b1, ?_⟩
  · rw [a3.idx, hf.idx]; rfl
  · rw [b2, a2]
    by_cases h0 : r'.left = 0
    · rw [h0]; rfl
    · have : ({ c with idx := c.idx + jump }.drop (2 * rest)).src = c.src + 2 * rest := by
        simp only [Cur.drop]
        unfold Cur.left at hl
        omega
      rw [this]

example : ∃ r, Reachable .be sample r ∧ r.left = 59 ∧ 300 - r.left = 8 * 30 + 1 ∧
    sample.length < r.index + 30 + 8 := by
  refine ⟨_, ⟨_, [.get64 5], _, rfl, by decide, rfl⟩, by decide, by decide, by decide⟩

end Verif.BitRead
