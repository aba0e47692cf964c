import Verif.Codebook.Props

/-! # C96: `reverse_bits` turns a description for one mode into the description for the other -/

namespace Verif.Codebook
open Verif Verif.BitRead

/-- `reverse_bits(code) >> (32 - bits)` for an entry with a codeword; `reverse_bits` is codebook.rs:96-109. An entry
without a codeword stays as it is (`x >> 32` would panic). -/
def mirror (d : Desc S) : Rust (Desc S) :=
  if d.bits = 0 then .ok d
  else do
    let y ← reverse_bits (BitVec.ofNat 32 d.code)
    let n ← usub 32 d.bits
    let c ← shr32 y.toNat n
    return { d with code := c }

/-- The other mode. -/
def Mode.flip : Mode → Mode
  | .msb => .lsb
  | .lsb => .msb

theorem mirror_ok (d : Desc S) (hb : d.bits ≤ 32) :
    ∃ d', mirror d = .ok d' ∧ d'.bits = d.bits ∧ d'.sym = d.sym ∧ (0 < d.bits → d'.code < 2 ^ d.bits) ∧
      (0 < d.bits → ∀ j, j < d.bits → d'.code.testBit j = d.code.testBit (d.bits - 1 - j)) := by
  unfold mirror
  by_cases h0 : d.bits = 0
  · rw [if_pos h0]
    exact ⟨d, rfl, rfl, rfl, by omega, by omega⟩
  · rw [if_neg h0]
    obtain ⟨y, h1, h2⟩ := c22_reverse (BitVec.ofNat 32 d.code)
    rw [h1, usub_ok hb]
    simp only [ok_bind, shr32, if_pos (show 32 - d.bits < 32 by omega), pure_eq_ok]
    refine ⟨_, rfl, rfl, rfl, ?_, ?_⟩
    · intro _
      show y.toNat >>> (32 - d.bits) < 2 ^ d.bits
      rw [Nat.shiftRight_eq_div_pow, Nat.div_lt_iff_lt_mul (Nat.two_pow_pos _), ← Nat.pow_add]
      rw [show d.bits + (32 - d.bits) = 32 by omega]
      exact y.isLt
    · intro _ j hj
      show (y.toNat >>> (32 - d.bits)).testBit j = _
      rw [Nat.testBit_shiftRight, BitVec.testBit_toNat, h2 _ (by omega), BitVec.getLsbD_ofNat]
      simp only [show 31 - (32 - d.bits + j) < 32 by omega, decide_true, Bool.true_and]
      congr 1; omega

/-- **C96.** Reversing a codeword of at most 32 bits never panics; the result has no bits above the length, and read in
the other mode it is the same bit string. -/
theorem c96_codeword (m : Mode) (d : Desc S) (hb : d.bits ≤ 32) :
    ∃ d', mirror d = .ok d' ∧ d'.bits = d.bits ∧ d'.sym = d.sym ∧ (0 < d.bits → d'.code < 2 ^ d'.bits) ∧
      codeBits m.flip d'.code d'.bits = codeBits m d.code d.bits := by
  obtain ⟨d', h1, h2, h3, h4, h5⟩ := mirror_ok d hb
  refine ⟨d', h1, h2, h3, by rw [h2]; exact h4, ?_⟩
  rw [h2]
  unfold codeBits
  apply List.map_congr_left
  intro j hj
  rw [List.mem_range] at hj
  cases m
  · exact h5 (by omega) j hj
  · show d'.code.testBit (d.bits - 1 - j) = d.code.testBit j
    rw [h5 (by omega) _ (by omega)]
    congr 1; omega

/-- A whole description. -/
def mirrorAll (ds : List (Desc S)) : Rust (List (Desc S)) := ds.mapM mirror

/-- The same entry for the other mode: same length and symbol, no bits above the length, the same bit string. -/
def Same (m : Mode) (d d' : Desc S) : Prop :=
  d'.bits = d.bits ∧ d'.sym = d.sym ∧ (0 < d.bits → d'.code < 2 ^ d'.bits) ∧
    codeBits m.flip d'.code d'.bits = codeBits m d.code d.bits

/-- Entry by entry. -/
inductive Mirrored (m : Mode) : List (Desc S) → List (Desc S) → Prop
  | nil : Mirrored m [] []
  | cons {d d' : Desc S} {ds ds' : List (Desc S)} :
      Same m d d' → Mirrored m ds ds' → Mirrored m (d :: ds) (d' :: ds')

theorem mirrorAll_ok (m : Mode) (ds : List (Desc S)) (hb : ∀ d ∈ ds, d.bits ≤ 32) :
    ∃ ds', mirrorAll ds = .ok ds' ∧ Mirrored m ds ds' := by
  induction ds with
  | nil => exact ⟨[], rfl, .nil⟩
  | cons d ds ih =>
    obtain ⟨d', a1, a2⟩ := c96_codeword m d (hb d (by simp))
    obtain ⟨ds', b1, b2⟩ := ih (fun d h => hb d (by simp [h]))
    refine ⟨d' :: ds', ?_, .cons a2 b2⟩
    unfold mirrorAll at b1 ⊢
    rw [List.mapM_cons, a1, b1]
    rfl

theorem Mirrored.used {m : Mode} {ds ds' : List (Desc S)} (h : Mirrored m ds ds') :
    Mirrored m (used ds) (used ds') := by
  induction h with
  | nil => exact .nil
  | @cons d d' ds ds' h _ ih =>
    unfold Codebook.used at ih ⊢
    by_cases hd : d.bits > 0
    · have hd' : d'.bits > 0 := by rw [h.1]; exact hd
      rw [List.filter_cons_of_pos (by simpa using hd), List.filter_cons_of_pos (by simpa using hd')]
      exact .cons h ih
    · have hd' : ¬ d'.bits > 0 := by rw [h.1]; exact hd
      rw [List.filter_cons_of_neg (by simpa using hd), List.filter_cons_of_neg (by simpa using hd')]
      exact ih

theorem Mirrored.mem {m : Mode} {ds ds' : List (Desc S)} (h : Mirrored m ds ds') :
    (∀ d ∈ ds, ∃ d' ∈ ds', Same m d d') ∧ (∀ d' ∈ ds', ∃ d ∈ ds, Same m d d') := by
  induction h with
  | nil => simp
  | @cons d d' ds ds' h _ ih =>
    refine ⟨?_, ?_⟩
    · intro x hx
      rcases List.mem_cons.1 hx with rfl | hx
      · exact ⟨d', by simp, h⟩
      · obtain ⟨y, h1, h2⟩ := ih.1 x hx
        exact ⟨y, by simp [h1], h2⟩
    · intro x hx
      rcases List.mem_cons.1 hx with rfl | hx
      · exact ⟨d, by simp, h⟩
      · obtain ⟨y, h1, h2⟩ := ih.2 x hx
        exact ⟨y, by simp [h1], h2⟩

theorem Mirrored.prefixFree {m : Mode} {ds ds' : List (Desc S)} (h : Mirrored m ds ds') :
    (ds.Pairwise fun a b => ¬ codeBits m a.code a.bits <+: codeBits m b.code b.bits ∧
      ¬ codeBits m b.code b.bits <+: codeBits m a.code a.bits) ↔
    (ds'.Pairwise fun a b => ¬ codeBits m.flip a.code a.bits <+: codeBits m.flip b.code b.bits ∧
      ¬ codeBits m.flip b.code b.bits <+: codeBits m.flip a.code a.bits) := by
  induction h with
  | nil => simp
  | @cons d d' ds ds' h hm ih =>
    rw [List.pairwise_cons, List.pairwise_cons, ih]
    have key : (∀ b ∈ ds, ¬ codeBits m d.code d.bits <+: codeBits m b.code b.bits ∧
        ¬ codeBits m b.code b.bits <+: codeBits m d.code d.bits) ↔
        (∀ b ∈ ds', ¬ codeBits m.flip d'.code d'.bits <+: codeBits m.flip b.code b.bits ∧
        ¬ codeBits m.flip b.code b.bits <+: codeBits m.flip d'.code d'.bits) := by
      constructor
      · intro h1 b hb
        obtain ⟨c, c1, c2⟩ := hm.mem.2 b hb
        rw [h.2.2.2, c2.2.2.2]
        exact h1 c c1
      · intro h1 b hb
        obtain ⟨c, c1, c2⟩ := hm.mem.1 b hb
        rw [← h.2.2.2, ← c2.2.2.2]
        exact h1 c c1
    rw [key]

theorem Mirrored.bits {m : Mode} {ds ds' : List (Desc S)} (h : Mirrored m ds ds') :
    ds'.map (·.bits) = ds.map (·.bits) ∧ ds'.map (·.sym) = ds.map (·.sym) ∧
      encode m.flip ds' = encode m ds := by
  induction h with
  | nil => simp [encode]
  | @cons d d' ds ds' h _ ih =>
    refine ⟨by rw [List.map_cons, List.map_cons, h.1, ih.1], by rw [List.map_cons, List.map_cons, h.2.1, ih.2.1], ?_⟩
    have h3 := ih.2.2
    unfold encode at h3 ⊢
    rw [List.flatMap_cons, List.flatMap_cons, h3, h.2.2.2]

theorem Mirrored.words {m : Mode} {ds ds' : List (Desc S)} (h : Mirrored m ds ds') :
    (ds'.map fun d => codeBits m.flip d.code d.bits) = ds.map fun d => codeBits m d.code d.bits := by
  induction h with
  | nil => rfl
  | @cons d d' ds ds' h _ ih => rw [List.map_cons, List.map_cons, ih, h.2.2.2]

theorem Mirrored.fits {m : Mode} {ds ds' : List (Desc S)} (h : Mirrored m ds ds') :
    Fits m.flip ds' ↔ Fits m ds := by
  have h2 : (Codebook.used ds').length = (Codebook.used ds).length := by
    have := congrArg List.length h.used.bits.1
    simpa using this
  have h3 : wordsOf m.flip ds' = wordsOf m ds := h.used.words
  unfold Fits tableSize
  rw [h2, h3]

theorem Mirrored.choose {m : Mode} {ds ds' : List (Desc S)} (h : Mirrored m ds ds') (xs : List (Desc S))
    (hxs : ∀ d ∈ xs, d ∈ ds) : ∃ xs', Mirrored m xs xs' ∧ ∀ d ∈ xs', d ∈ ds' := by
  induction xs with
  | nil => exact ⟨[], .nil, by simp⟩
  | cons x xs ih =>
    obtain ⟨xs', a1, a2⟩ := ih (fun d h => hxs d (by simp [h]))
    obtain ⟨x', b1, b2⟩ := h.mem.1 x (hxs x (by simp))
    refine ⟨x' :: xs', .cons b2 a1, ?_⟩
    intro d hd
    rcases List.mem_cons.1 hd with rfl | hd
    · exact b1
    · exact a2 d hd

/-- **C96.** Reversing every codeword of a description of codewords of at most 32 bits keeps lengths and symbols,
leaves no bits above the lengths, and the result is prefix-free for the other mode exactly when the description was for
its own. -/
theorem c96_description (m : Mode) (ds : List (Desc S)) (hb : ∀ d ∈ ds, d.bits ≤ 32) :
    ∃ ds', mirrorAll ds = .ok ds' ∧ ds'.map (·.bits) = ds.map (·.bits) ∧ ds'.map (·.sym) = ds.map (·.sym) ∧
      WF m.flip ds' ∧ (PrefixFree m.flip ds' ↔ PrefixFree m ds) ∧ (Fits m.flip ds' ↔ Fits m ds) := by
  obtain ⟨ds', h1, h2⟩ := mirrorAll_ok m ds hb
  refine ⟨ds', h1, h2.bits.1, h2.bits.2.1, ?_, h2.used.prefixFree.symm, h2.fits⟩
  intro d' hd'
  obtain ⟨d, a1, a2⟩ := h2.used.mem.2 d' hd'
  unfold used at a1
  rw [List.mem_filter] at a1
  rw [a2.1]
  refine ⟨Nat.le_trans (hb d a1.1) (by cases m <;> decide), ?_⟩
  have := a2.2.2.1 (by simpa using a1.2)
  rwa [a2.1] at this

/-- **C96.** Hence a book for the other mode made from the reversed codewords decodes, with the other reader and after
any in-data history, every stream whose bits (in that reader's order) are the codewords of the original description. -/
theorem c96_decode (ord : Order) (hord : ord.Valid) (m : Mode) (ds : List (Desc S)) (hb : ∀ d ∈ ds, d.bits ≤ 32)
    (hpf : PrefixFree m ds) (hfit : Fits m ds) (hne : used ds ≠ [])
    (xs : List (Desc S)) (hxs : ∀ d ∈ xs, d ∈ used ds)
    (buf : List U8) (pre : List Op) (hpre : within buf 0 pre)
    (hin : (specRun (endianOf m.flip) buf 0 pre).2 + (encode m xs).length + 64 ≤ 8 * buf.length)
    (h32 : 8 * buf.length < 2 ^ 32)
    (hbits : streamBits (endianOf m.flip) buf (specRun (endianOf m.flip) buf 0 pre).2 (encode m xs).length =
      encode m xs) (fuel : Nat) (hfu : 26 ≤ fuel) :
    ∃ ds' cb r0 vs r r', mirrorAll ds = .ok ds' ∧ new ord m.flip ds' = .ok (.ok cb) ∧
      BitRead.new (endianOf m.flip) buf = .ok r0 ∧ run (endianOf m.flip) r0 pre = .ok (vs, r) ∧
      readMany (endianOf m.flip) fuel cb xs.length r = .ok (xs.map fun d => .ok d.sym, r') ∧
      StandsAt (endianOf m.flip) buf r' ((specRun (endianOf m.flip) buf 0 pre).2 + (encode m xs).length) := by
  obtain ⟨ds', h1, h2⟩ := mirrorAll_ok m ds hb
  obtain ⟨ds2, g1, _, _, g4, g5, g6⟩ := c96_description m ds hb
  rw [h1] at g1
  cases g1
  obtain ⟨xs', a1, a2⟩ := h2.used.choose xs hxs
  have he := a1.bits.2.2
  have hne' : used ds' ≠ [] := by
    intro h
    have := congrArg List.length h2.used.bits.1
    rw [h] at this
    simp only [List.map_nil, List.length_nil, List.length_map] at this
    exact hne (List.eq_nil_of_length_eq_zero this.symm)
  obtain ⟨cb, r0, vs, r, r', b1, b2, b3, b4, b5⟩ := c15_sequence ord hord m.flip ds' g4 (g5.2 hpf) (g6.2 hfit) xs' a2
    hne' buf pre hpre (by rw [he]; exact hin) h32 (by rw [he]; exact hbits) fuel hfu
  have hl : xs'.length = xs.length := by simpa using congrArg List.length a1.bits.1
  have hs : (xs'.map fun d => (Except.ok d.sym : Except CodebookError S)) = xs.map fun d => .ok d.sym := by
    have := congrArg (List.map (fun s => (Except.ok s : Except CodebookError S))) a1.bits.2.1
    simpa [List.map_map, Function.comp_def] using this
  rw [hl, hs] at b4
  rw [he] at b5
  exact ⟨ds', cb, r0, vs, r, r', h1, b1, b2, b3, b4, b5⟩

/-- The sample book of `c13_msb_decode`, reversed, is a book for the little-endian reader. -/
example : (∀ d ∈ book, d.bits ≤ 32) ∧ PrefixFree .msb book ∧ Fits .msb book ∧ used book ≠ [] := by decide
example : mirrorAll book = .ok bookLsb := by decide
example : let xs : List (Desc Nat) := [⟨0b111111111110, 12, 103⟩, ⟨0b0, 1, 100⟩, ⟨0b110, 3, 102⟩]
    let buf : List U8 := [0xff, 0x67, 0, 0, 0, 0, 0, 0, 0, 0]
    (∀ d ∈ xs, d ∈ used book) ∧ (encode .msb xs).length + 64 ≤ 8 * buf.length ∧
      streamBits (endianOf Mode.msb.flip) buf 0 (encode .msb xs).length = encode .msb xs := by decide

end Verif.Codebook
