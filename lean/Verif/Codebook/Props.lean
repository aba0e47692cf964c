import Verif.Codebook.Read
import Verif.Codebook.Reverse

/-! # C13–C22, C66: codebooks -/

namespace Verif.Codebook
open Verif Verif.BitRead

/-! ### sample data of the examples -/

/-- Six codewords (the last two longer than one table), and two unused entries. -/
def book : List (Desc Nat) :=
  [⟨0b0, 1, 100⟩, ⟨0, 0, 7⟩, ⟨0b10, 2, 101⟩, ⟨0b110, 3, 102⟩, ⟨0, 0, 8⟩,
   ⟨0b111111111110, 12, 103⟩, ⟨0b111111111111, 12, 104⟩]

/-- The mirror image of `book`, to be read least significant bit first. -/
def bookLsb : List (Desc Nat) :=
  [⟨0b0, 1, 100⟩, ⟨0, 0, 7⟩, ⟨0b01, 2, 101⟩, ⟨0b011, 3, 102⟩, ⟨0, 0, 8⟩,
   ⟨0b011111111111, 12, 103⟩, ⟨0b111111111111, 12, 104⟩]

/-- The order of insertion is an iteration order. -/
def insOrder : Order := fun _ _ l => l

/-- So is its reverse. -/
def revOrder : Order := fun _ _ l => l.reverse

theorem insOrder_valid : insOrder.Valid := fun _ _ _ => .refl _
theorem revOrder_valid : revOrder.Valid := fun _ _ l => l.reverse_perm

/-- Repeated `read_cb`. -/
def readMany (e : Endian) (fuel : Nat) (cb : Codebook S) :
    Nat → Reader → Rust (List (Except CodebookError S) × Reader)
  | 0, r => .ok ([], r)
  | n + 1, r => do
    let (x, r) ← readCb e fuel cb r
    let (xs, r) ← readMany e fuel cb n r
    return (x :: xs, r)

/-- Everything the reader does from here on is what a reader standing at bit `p` does. -/
def StandsAt (e : Endian) (buf : List U8) (r : Reader) (p : Nat) : Prop :=
  consumed r = .ok p ∧ available r = .ok (8 * buf.length - p) ∧
    ∀ post, within buf p post → ∃ r2, run e r post = .ok ((specRun e buf p post).1, r2)

theorem Synced.standsAt {e : Endian} {r : Reader} {p : Nat} (h : Synced e r p) :
    StandsAt e r.buffer r p := by
  refine ⟨h.consumed, h.available, ?_⟩
  intro post hp
  obtain ⟨r2, h1, _⟩ := run_within h post hp
  exact ⟨r2, h1⟩

/-! ### C13, C14, C15 -/

theorem readCb_code {ord : Order} (hord : ord.Valid) {m : Mode} {ds : List (Desc S)} (hwf : WF m ds)
    (hpf : PrefixFree m ds) (hfit : Fits m ds) {cb : Codebook S} (hcb : new ord m ds = .ok (.ok cb))
    {d : Desc S} (hd : d ∈ used ds) {fuel : Nat} (hfu : 26 ≤ fuel) {r : Reader} {p : Nat}
    (hs : Synced (endianOf m) r p)
    (hv : streamBits (endianOf m) r.buffer p d.bits = codeBits m d.code d.bits)
    (hp : p + d.bits + 64 ≤ 8 * r.buffer.length) (h32 : 8 * r.buffer.length < 2 ^ 32) :
    ∃ r', readCb (endianOf m) fuel cb r = .ok (.ok d.sym, r') ∧ r'.buffer = r.buffer ∧
      Synced (endianOf m) r' (p + d.bits) := by
  obtain ⟨T, h1, h2⟩ := new_ok hord hwf hpf hfit (List.ne_nil_of_mem hd)
  rw [hcb] at h1
  simp only [Except.ok.injEq] at h1
  subst h1
  obtain ⟨j, hj, hjd⟩ := List.mem_iff_getElem.mp hd
  have hget : (used ds)[j]? = some d := by rw [← hjd]; exact List.getElem?_eq_getElem hj
  have hc := codesFrom_get (k := 0) hget
  rw [streamBits_code (hwf d hd).2] at hv
  obtain ⟨r', a1, a2, a3⟩ := readLoop_code 26 hfu (codesFrom_PF hwf hpf) (codesFrom_CWF hwf hfit.2) h2 hc hs
    hv hp h32
  refine ⟨r', ?_, a2, a3⟩
  unfold readCb
  simp only [a1, ok_bind]
  have : ((used ds).map (·.sym))[0 + j]? = some d.sym := by rw [Nat.zero_add]; simp [hget]
  rw [idx_some this]
  rfl

/-- Decoding of one codeword, both modes. -/
theorem decode_one {ord : Order} (hord : ord.Valid) (m : Mode) (ds : List (Desc S)) (hwf : WF m ds)
    (hpf : PrefixFree m ds) (hfit : Fits m ds) (d : Desc S) (hd : d ∈ used ds)
    (buf : List U8) (pre : List Op) (hpre : within buf 0 pre)
    (hin : (specRun (endianOf m) buf 0 pre).2 + d.bits + 64 ≤ 8 * buf.length)
    (h32 : 8 * buf.length < 2 ^ 32)
    (hbits : streamBits (endianOf m) buf (specRun (endianOf m) buf 0 pre).2 d.bits =
      codeBits m d.code d.bits) (fuel : Nat) (hfu : 26 ≤ fuel) :
    ∃ cb r0 vs r r', new ord m ds = .ok (.ok cb) ∧ BitRead.new (endianOf m) buf = .ok r0 ∧
      run (endianOf m) r0 pre = .ok (vs, r) ∧
      readCb (endianOf m) fuel cb r = .ok (.ok d.sym, r') ∧
      StandsAt (endianOf m) buf r' ((specRun (endianOf m) buf 0 pre).2 + d.bits) := by
  obtain ⟨T, h1, _⟩ := new_ok hord hwf hpf hfit (List.ne_nil_of_mem hd)
  obtain ⟨r0, n1, n2, _, n3⟩ := new_spec (endianOf m) buf
  obtain ⟨r, a1, a2, a3⟩ := run_within n3 pre (by rw [n2]; exact hpre)
  rw [n2] at a1 a2 a3
  obtain ⟨r', b1, b2, b3⟩ := readCb_code hord hwf hpf hfit h1 hd hfu a3 (by rw [a2]; exact hbits)
    (by rw [a2]; exact hin) (by rw [a2]; exact h32)
  refine ⟨_, r0, _, r, r', h1, n1, a1, b1, ?_⟩
  have := Synced.standsAt b3
  rwa [b2, a2] at this

/-- **C13** For every prefix-free description in MSB mode `Codebook::new` succeeds, whatever the hash
map order, and after any in-data history of the big-endian reader, if the next bits are a codeword,
`read_cb` returns its symbol and leaves the reader exactly behind the codeword.
(The data ends 8 bytes before the end of the buffer, which is shorter than 2^32 bits; see C66.) -/
theorem c13_msb_decode (ord : Order) (hord : ord.Valid) (ds : List (Desc S)) (hwf : WF .msb ds)
    (hpf : PrefixFree .msb ds) (hfit : Fits .msb ds) (d : Desc S) (hd : d ∈ used ds)
    (buf : List U8) (pre : List Op) (hpre : within buf 0 pre)
    (hin : (specRun .be buf 0 pre).2 + d.bits + 64 ≤ 8 * buf.length)
    (h32 : 8 * buf.length < 2 ^ 32)
    (hbits : streamBits .be buf (specRun .be buf 0 pre).2 d.bits = codeBits .msb d.code d.bits)
    (fuel : Nat) (hfu : 26 ≤ fuel) :
    ∃ cb r0 vs r r', new ord .msb ds = .ok (.ok cb) ∧ BitRead.new .be buf = .ok r0 ∧
      run .be r0 pre = .ok (vs, r) ∧ readCb .be fuel cb r = .ok (.ok d.sym, r') ∧
      StandsAt .be buf r' ((specRun .be buf 0 pre).2 + d.bits) :=
  decode_one hord .msb ds hwf hpf hfit d hd buf pre hpre hin h32 hbits fuel hfu

/-- 3 bits, then codewords 103, 100, 102 of `book`, then padding. -/
def msbStream : List U8 := [0b01011111, 0b11111100, 0b11000000, 0, 0, 0, 0, 0, 0, 0, 0, 0]

example : WF .msb book ∧ PrefixFree .msb book ∧ Fits .msb book ∧ ⟨0b111111111110, 12, 103⟩ ∈ used book ∧
    within msbStream 0 [.get32 3] ∧
    (specRun .be msbStream 0 [.get32 3]).2 + 12 + 64 ≤ 8 * msbStream.length ∧
    8 * msbStream.length < 2 ^ 32 ∧
    streamBits .be msbStream (specRun .be msbStream 0 [.get32 3]).2 12 =
      codeBits .msb 0b111111111110 12 := by decide

/-- Codes of 41 bits, the longest the construction takes in MSB mode. -/
def bookLong : List (Desc Nat) := [⟨1, 41, 5⟩, ⟨0, 41, 6⟩, ⟨1, 1, 7⟩, ⟨0b01, 30, 8⟩]

example : WF .msb bookLong ∧ PrefixFree .msb bookLong ∧ Fits .msb bookLong ∧ ⟨1, 41, 5⟩ ∈ used bookLong ∧
    streamBits .be [0, 0, 0, 0, 0, 0x80, 0, 0, 0, 0, 0, 0, 0, 0] 0 41 = codeBits .msb 1 41 ∧
    0 + 41 + 64 ≤ 8 * 14 := by decide

/-- **C14** The same for LSB mode and the little-endian reader. -/
theorem c14_lsb_decode (ord : Order) (hord : ord.Valid) (ds : List (Desc S)) (hwf : WF .lsb ds)
    (hpf : PrefixFree .lsb ds) (hfit : Fits .lsb ds) (d : Desc S) (hd : d ∈ used ds)
    (buf : List U8) (pre : List Op) (hpre : within buf 0 pre)
    (hin : (specRun .le buf 0 pre).2 + d.bits + 64 ≤ 8 * buf.length)
    (h32 : 8 * buf.length < 2 ^ 32)
    (hbits : streamBits .le buf (specRun .le buf 0 pre).2 d.bits = codeBits .lsb d.code d.bits)
    (fuel : Nat) (hfu : 26 ≤ fuel) :
    ∃ cb r0 vs r r', new ord .lsb ds = .ok (.ok cb) ∧ BitRead.new .le buf = .ok r0 ∧
      run .le r0 pre = .ok (vs, r) ∧ readCb .le fuel cb r = .ok (.ok d.sym, r') ∧
      StandsAt .le buf r' ((specRun .le buf 0 pre).2 + d.bits) :=
  decode_one hord .lsb ds hwf hpf hfit d hd buf pre hpre hin h32 hbits fuel hfu

def lsbStream : List U8 := [0b11111010, 0b00111111, 0b00000011, 0, 0, 0, 0, 0, 0, 0, 0, 0]

example : WF .lsb bookLsb ∧ PrefixFree .lsb bookLsb ∧ Fits .lsb bookLsb ∧
    ⟨0b011111111111, 12, 103⟩ ∈ used bookLsb ∧ within lsbStream 0 [.get32 3] ∧
    (specRun .le lsbStream 0 [.get32 3]).2 + 12 + 64 ≤ 8 * lsbStream.length ∧
    8 * lsbStream.length < 2 ^ 32 ∧
    streamBits .le lsbStream (specRun .le lsbStream 0 [.get32 3]).2 12 =
      codeBits .lsb 0b011111111111 12 := by decide

/-- Codes of up to 255 bits. -/
def bookLsbLong : List (Desc Nat) := [⟨0, 60, 5⟩, ⟨0b10, 255, 6⟩, ⟨1, 1, 7⟩]

example : WF .lsb bookLsbLong ∧ PrefixFree .lsb bookLsbLong ∧ Fits .lsb bookLsbLong ∧ ⟨0b10, 255, 6⟩ ∈ used bookLsbLong ∧
    streamBits .le (2 :: List.replicate 47 0) 0 255 = codeBits .lsb 0b10 255 ∧ 0 + 255 + 64 ≤ 8 * 48 := by
  decide +kernel

/-- The concatenation of codewords. -/
def encode (m : Mode) (xs : List (Desc S)) : List Bool := xs.flatMap fun d => codeBits m d.code d.bits

theorem streamBits_append (e : Endian) (buf : List U8) (p a b : Nat) :
    streamBits e buf p (a + b) = streamBits e buf p a ++ streamBits e buf (p + a) b := by
  unfold streamBits
  rw [List.range_add, List.map_append, List.map_map]
  congr 1
  apply List.map_congr_left
  intro j _
  simp [Nat.add_assoc]

theorem streamBits_length (e : Endian) (buf : List U8) (p n : Nat) : (streamBits e buf p n).length = n := by
  simp [streamBits]

theorem readMany_code {ord : Order} (hord : ord.Valid) {m : Mode} {ds : List (Desc S)} (hwf : WF m ds)
    (hpf : PrefixFree m ds) (hfit : Fits m ds) {cb : Codebook S} (hcb : new ord m ds = .ok (.ok cb))
    {fuel : Nat} (hfu : 26 ≤ fuel) (xs : List (Desc S)) (hxs : ∀ d ∈ xs, d ∈ used ds) {r : Reader} {p : Nat}
    (hs : Synced (endianOf m) r p)
    (hv : streamBits (endianOf m) r.buffer p (encode m xs).length = encode m xs)
    (hp : p + (encode m xs).length + 64 ≤ 8 * r.buffer.length) (h32 : 8 * r.buffer.length < 2 ^ 32) :
    ∃ r', readMany (endianOf m) fuel cb xs.length r = .ok (xs.map fun d => .ok d.sym, r') ∧
      r'.buffer = r.buffer ∧ Synced (endianOf m) r' (p + (encode m xs).length) := by
  induction xs generalizing r p with
  | nil => exact ⟨r, rfl, rfl, by simpa [encode] using hs⟩
  | cons d xs ih =>
    have he : encode m (d :: xs) = codeBits m d.code d.bits ++ encode m xs := by simp [encode]
    have hl : (encode m (d :: xs)).length = d.bits + (encode m xs).length := by
      rw [he, List.length_append, codeBits_length]
    rw [hl, he, streamBits_append] at hv
    obtain ⟨v1, v2⟩ := List.append_inj hv (by rw [streamBits_length, codeBits_length])
    rw [hl] at hp ⊢
    obtain ⟨r1, a1, a2, a3⟩ := readCb_code hord hwf hpf hfit hcb (hxs d (by simp)) hfu hs v1 (by omega) h32
    obtain ⟨r2, b1, b2, b3⟩ := ih (fun d h => hxs d (by simp [h])) a3 (by rw [a2]; exact v2)
      (by rw [a2]; omega) (by rw [a2]; exact h32)
    refine ⟨r2, ?_, by rw [b2, a2], by rwa [Nat.add_assoc] at b3⟩
    simp only [List.length_cons, readMany, a1, ok_bind, b1, pure_eq_ok, List.map_cons]

/-- **C15** If after any in-data history the next bits are the concatenation of codewords of a list of
entries, repeated `read_cb` returns exactly their symbols and ends exactly behind the last codeword. -/
theorem c15_sequence (ord : Order) (hord : ord.Valid) (m : Mode) (ds : List (Desc S)) (hwf : WF m ds)
    (hpf : PrefixFree m ds) (hfit : Fits m ds) (xs : List (Desc S)) (hxs : ∀ d ∈ xs, d ∈ used ds)
    (hne : used ds ≠ [])
    (buf : List U8) (pre : List Op) (hpre : within buf 0 pre)
    (hin : (specRun (endianOf m) buf 0 pre).2 + (encode m xs).length + 64 ≤ 8 * buf.length)
    (h32 : 8 * buf.length < 2 ^ 32)
    (hbits : streamBits (endianOf m) buf (specRun (endianOf m) buf 0 pre).2 (encode m xs).length =
      encode m xs) (fuel : Nat) (hfu : 26 ≤ fuel) :
    ∃ cb r0 vs r r', new ord m ds = .ok (.ok cb) ∧ BitRead.new (endianOf m) buf = .ok r0 ∧
      run (endianOf m) r0 pre = .ok (vs, r) ∧
      readMany (endianOf m) fuel cb xs.length r = .ok (xs.map fun d => .ok d.sym, r') ∧
      StandsAt (endianOf m) buf r' ((specRun (endianOf m) buf 0 pre).2 + (encode m xs).length) := by
  obtain ⟨T, h1, _⟩ := new_ok hord hwf hpf hfit hne
  obtain ⟨r0, n1, n2, _, n3⟩ := new_spec (endianOf m) buf
  obtain ⟨r, a1, a2, a3⟩ := run_within n3 pre (by rw [n2]; exact hpre)
  rw [n2] at a1 a2 a3
  obtain ⟨r', b1, b2, b3⟩ := readMany_code hord hwf hpf hfit h1 hfu xs hxs a3 (by rw [a2]; exact hbits)
    (by rw [a2]; exact hin) (by rw [a2]; exact h32)
  refine ⟨_, r0, _, r, r', h1, n1, a1, b1, ?_⟩
  have := Synced.standsAt b3
  rwa [b2, a2] at this

/-- Codewords 103, 100, 102. -/
def word3 : List (Desc Nat) := [⟨0b111111111110, 12, 103⟩, ⟨0b0, 1, 100⟩, ⟨0b110, 3, 102⟩]

example : (∀ d ∈ word3, d ∈ used book) ∧ used book ≠ [] ∧ (encode .msb word3).length = 16 ∧
    (specRun .be msbStream 0 [.get32 3]).2 + 16 + 64 ≤ 8 * msbStream.length ∧
    streamBits .be msbStream (specRun .be msbStream 0 [.get32 3]).2 16 = encode .msb word3 := by decide

/-! ### C16 -/

/-- **C16** After any in-data history, and as long as even the longest codeword would end inside the
data: if no codeword is a prefix of the following bits, `read_cb` returns `InvalidCode`; and whenever it
returns a symbol, it is the symbol of an entry whose codeword really was next and has been passed. In
either case it does not panic. -/
theorem c16_reject (ord : Order) (hord : ord.Valid) (m : Mode) (ds : List (Desc S)) (hwf : WF m ds)
    (hpf : PrefixFree m ds) (hfit : Fits m ds) (hne : used ds ≠ [])
    (buf : List U8) (pre : List Op) (hpre : within buf 0 pre)
    (hin : ∀ d ∈ used ds, (specRun (endianOf m) buf 0 pre).2 + d.bits + 64 ≤ 8 * buf.length)
    (h32 : 8 * buf.length < 2 ^ 32) (fuel : Nat) (hfu : 26 ≤ fuel) :
    ∃ cb r0 vs r res r', new ord m ds = .ok (.ok cb) ∧ BitRead.new (endianOf m) buf = .ok r0 ∧
      run (endianOf m) r0 pre = .ok (vs, r) ∧ readCb (endianOf m) fuel cb r = .ok (res, r') ∧
      ((∀ d ∈ used ds, streamBits (endianOf m) buf (specRun (endianOf m) buf 0 pre).2 d.bits ≠
          codeBits m d.code d.bits) → res = .error .invalidCode) ∧
      (∀ s, res = .ok s → ∃ d ∈ used ds, d.sym = s ∧
        streamBits (endianOf m) buf (specRun (endianOf m) buf 0 pre).2 d.bits = codeBits m d.code d.bits ∧
        StandsAt (endianOf m) buf r' ((specRun (endianOf m) buf 0 pre).2 + d.bits)) ∧
      (∀ err, res = .error err → err = .invalidCode ∧ ∀ d ∈ used ds,
        streamBits (endianOf m) buf (specRun (endianOf m) buf 0 pre).2 d.bits ≠ codeBits m d.code d.bits) := by
  obtain ⟨T, h1, hN⟩ := new_ok hord hwf hpf hfit hne
  obtain ⟨r0, n1, n2, _, n3⟩ := new_spec (endianOf m) buf
  obtain ⟨r, a1, a2, a3⟩ := run_within n3 pre (by rw [n2]; exact hpre)
  rw [n2] at a1 a2 a3
  by_cases hex : ∃ d ∈ used ds, streamBits (endianOf m) buf (specRun (endianOf m) buf 0 pre).2 d.bits =
      codeBits m d.code d.bits
  · obtain ⟨d, hd, hb⟩ := hex
    obtain ⟨r', b1, b2, b3⟩ := readCb_code hord hwf hpf hfit h1 hd hfu a3 (by rw [a2]; exact hb)
      (by rw [a2]; exact hin d hd) (by rw [a2]; exact h32)
    have hst := Synced.standsAt b3
    rw [b2, a2] at hst
    refine ⟨_, r0, _, r, _, r', h1, n1, a1, b1, fun h => absurd hb (h d hd), ?_, ?_⟩
    · intro s hs
      simp only [Except.ok.injEq] at hs
      exact ⟨d, hd, hs, hb, hst⟩
    · intro err h; cases h
  · have hno : ∀ d ∈ used ds, streamBits (endianOf m) buf (specRun (endianOf m) buf 0 pre).2 d.bits ≠
        codeBits m d.code d.bits := fun d hd hb => hex ⟨d, hd, hb⟩
    have key : ∀ c ∈ codesFrom 0 ds, ∃ d ∈ used ds, d.code = c.code ∧ d.bits = c.bits := by
      intro c hc
      obtain ⟨_, d, g1, g2⟩ := mem_codesFrom hc
      exact ⟨d, List.mem_of_getElem? g1, g2⟩
    obtain ⟨r', b1, b2, b3⟩ := readLoop_reject 26 hfu (codesFrom_CWF hwf hfit.2) hN a3
      (by
        intro c hc he
        obtain ⟨d, hd, g1, g2⟩ := key c hc
        apply hno d hd
        rw [streamBits_code (hwf d hd).2, g1, g2, ← he, a2])
      (by
        intro c hc
        obtain ⟨d, hd, g1, g2⟩ := key c hc
        rw [a2, ← g2]; exact hin d hd)
      (by rw [a2]; exact h32)
    refine ⟨_, r0, _, r, .error .invalidCode, r', h1, n1, a1, ?_, fun _ => rfl, ?_, ?_⟩
    · unfold readCb
      simp only [b1, ok_bind]
    · intro s h; cases h
    · intro err h
      simp only [Except.error.injEq] at h
      exact ⟨h.symm, hno⟩

/-- 1110…: no codeword of `book`. -/
def badStream : List U8 := [0b01011100, 0, 0, 0, 0, 0, 0, 0, 0, 0]

example : used book ≠ [] ∧ within badStream 0 [.get32 3] ∧
    (∀ d ∈ used book, (specRun .be badStream 0 [.get32 3]).2 + d.bits + 64 ≤ 8 * badStream.length) ∧
    (∀ d ∈ used book, streamBits .be badStream (specRun .be badStream 0 [.get32 3]).2 d.bits ≠
      codeBits .msb d.code d.bits) := by decide

/-! ### C18 -/

/-- **C18** Whatever the iteration order of the hash maps, the book behaves the same: with every reader,
in every state, `read_cb` has the same result and the same effect on the reader (including any panic). -/
theorem c18_order (ord ord' : Order) (hord : ord.Valid) (hord' : ord'.Valid) (m : Mode)
    (ds : List (Desc S)) (hwf : WF m ds) (hpf : PrefixFree m ds) (hfit : Fits m ds) (hne : used ds ≠ []) :
    ∃ cb cb', new ord m ds = .ok (.ok cb) ∧ new ord' m ds = .ok (.ok cb') ∧
      ∀ e fuel r, readCb e fuel cb r = readCb e fuel cb' r := by
  obtain ⟨T, h1, h2⟩ := new_ok hord hwf hpf hfit hne
  obtain ⟨T', h1', h2'⟩ := new_ok hord' hwf hpf hfit hne
  refine ⟨_, _, h1, h1', ?_⟩
  intro e fuel r
  unfold readCb
  simp only [readLoop_same (e := e) fuel (codesFrom_PF hwf hpf) (codesFrom_CWF hwf hfit.2) h2 h2' r]

/-- Two escape tables, whose position in the table depends on the order. -/
def book2 : List (Desc Nat) :=
  [⟨0, 11, 1⟩, ⟨1, 11, 2⟩, ⟨0b11111111110, 11, 3⟩, ⟨0b11111111111, 11, 4⟩]

/-- Three levels, whose layout depends on the iteration order of the inner maps. -/
def book3 : List (Desc Nat) :=
  [⟨0, 21, 1⟩, ⟨1, 21, 2⟩, ⟨0b11111111110, 21, 3⟩, ⟨0b11111111111, 21, 4⟩]

example : insOrder.Valid ∧ revOrder.Valid ∧ WF .msb book3 ∧ PrefixFree .msb book3 ∧ Fits .msb book3 ∧
    used book3 ≠ [] := ⟨insOrder_valid, revOrder_valid, by decide, by decide, by decide, by decide⟩

/-! ### C19 -/

theorem gather_used (m : Mode) (ds : List (Desc S)) (st : Gather) :
    ds.foldlM (gatherStep m) st = (used ds).foldlM (gatherStep m) st := by
  induction ds generalizing st with
  | nil => rfl
  | cons d ds ih =>
    by_cases h : d.bits = 0
    · have e1 : used (d :: ds) = used ds := by simp [used, h]
      rw [e1, ← ih, List.foldlM_cons]
      simp only [gatherStep, h, MAX_LUT_BITS, show ¬ 0 > 10 by omega, show ¬ 0 > 0 by omega, if_false,
        ok_bind, pure_eq_ok, Nat.zero_max]
    · have e1 : used (d :: ds) = d :: used ds := by simp [used, show 0 < d.bits by omega]
      rw [e1, List.foldlM_cons, List.foldlM_cons]
      congr 1
      funext st'
      exact ih st'

theorem fill_used (m : Mode) (mb : Nat) (ds : List (Desc S)) (st : Fill) :
    ds.foldlM (fillStep m mb) st = (used ds).foldlM (fillStep m mb) st := by
  induction ds generalizing st with
  | nil => rfl
  | cons d ds ih =>
    by_cases h : d.bits = 0
    · have e1 : used (d :: ds) = used ds := by simp [used, h]
      rw [e1, ← ih, List.foldlM_cons]
      simp only [fillStep, h, if_true, ok_bind]
    · have e1 : used (d :: ds) = d :: used ds := by simp [used, show 0 < d.bits by omega]
      rw [e1, List.foldlM_cons, List.foldlM_cons]
      congr 1
      funext st'
      exact ih st'

theorem gather_maxbits (m : Mode) (ds : List (Desc S)) (st g : Gather)
    (h : ds.foldlM (gatherStep m) st = .ok g) : g.maxbits = 0 ↔ st.maxbits = 0 ∧ used ds = [] := by
  induction ds generalizing st with
  | nil => cases h; simp [used]
  | cons d ds ih =>
    rw [List.foldlM_cons] at h
    cases hs : gatherStep m st d with
    | error p => rw [hs] at h; cases h
    | ok st' =>
      rw [hs] at h
      have := ih st' h
      have hm : st'.maxbits = max d.bits st.maxbits := by
        unfold gatherStep at hs
        simp only at hs
        split at hs
        · cases h1 : extractLutPart d.code d.bits MAX_LUT_BITS m with
          | error p => rw [h1] at hs; cases hs
          | ok a =>
            cases h2 : extractEscPart d.code d.bits MAX_LUT_BITS m with
            | error p => rw [h1, h2] at hs; cases hs
            | ok b => rw [h1, h2] at hs; cases hs; rfl
        · cases hs; rfl
      rw [this, hm]
      by_cases h0 : d.bits = 0
      · have e1 : used (d :: ds) = used ds := by simp [used, h0]
        rw [e1, h0, Nat.zero_max]
      · have e1 : used (d :: ds) = d :: used ds := by simp [used, show 0 < d.bits by omega]
        rw [e1]
        constructor
        · rintro ⟨h1, _⟩; omega
        · rintro ⟨_, h2⟩; cases h2

/-- **C19** For every description whatsoever: entries without a codeword make no difference at all. -/
theorem c19_unused (ord : Order) (m : Mode) (ds : List (Desc S)) :
    new ord m ds = new ord m (used ds) := by
  unfold new
  rw [gather_used]
  have h1 : ∀ (mb : Nat) (st : Fill), ds.foldlM (fillStep m mb) st = (used ds).foldlM (fillStep m mb) st :=
    fun mb st => fill_used m mb ds st
  have h2 : (used ds).filter (fun d => decide (d.bits > 0)) = ds.filter fun d => decide (d.bits > 0) := by
    simp [used]
  simp only [h1, h2]

/-- **C19** If the description uses no entry the result is `InvalidCodebook`; otherwise construction does
not report an error, and the symbols of a constructed book are those of the used entries in order. -/
theorem c19_invalid (ord : Order) (m : Mode) (ds : List (Desc S)) :
    (used ds = [] → new ord m ds = .ok (.error .invalidCodebook)) ∧
    (∀ err, new ord m ds = .ok (.error err) → err = .invalidCodebook ∧ used ds = []) ∧
    (∀ cb, new ord m ds = .ok (.ok cb) → used ds ≠ [] ∧ cb.syms = (used ds).map (·.sym)) := by
  refine ⟨?_, ?_, ?_⟩
  · intro h
    rw [c19_unused, h]
    rfl
  · intro err h
    unfold new at h
    cases hg : ds.foldlM (gatherStep m) { maxbits := 0, esc := [], symidx := 0 } with
    | error p => rw [hg] at h; cases h
    | ok g =>
      rw [hg] at h
      simp only [ok_bind] at h
      have hm := gather_maxbits m ds _ g hg
      split at h
      · rename_i h0
        simp only [Except.ok.injEq, Except.error.injEq] at h
        exact ⟨h.symm, (hm.mp h0).2⟩
      · simp only [bind, Except.bind, pure, Except.pure] at h
        split at h
        · cases h
        · split at h <;> cases h
  · intro cb h
    unfold new at h
    cases hg : ds.foldlM (gatherStep m) { maxbits := 0, esc := [], symidx := 0 } with
    | error p => rw [hg] at h; cases h
    | ok g =>
      rw [hg] at h
      simp only [ok_bind] at h
      have hm := gather_maxbits m ds _ g hg
      split at h
      · cases h
      · rename_i h0
        refine ⟨fun hu => h0 (hm.mpr ⟨rfl, hu⟩), ?_⟩
        simp only [bind, Except.bind, pure, Except.pure] at h
        split at h
        · cases h
        · split at h
          · cases h
          · cases h; rfl

example : used ([⟨5, 0, 1⟩, ⟨9, 0, 2⟩] : List (Desc Nat)) = [] ∧ (used book).map (·.sym) =
    [100, 101, 102, 103, 104] := by decide

/-! ### C22 -/

/-- **C22** `reverse_bits` never panics and mirrors the word. -/
theorem c22_reverse (x : BitVec 32) : ∃ y, reverse_bits x = .ok y ∧
    ∀ i, i < 32 → y.getLsbD i = x.getLsbD (31 - i) :=
  reverseLoop_spec 8 0 x x 0 rfl (by simp) (by intro j hj; omega)

/-- **C22** Hence it is an involution. -/
theorem c22_involution (x : BitVec 32) : (do reverse_bits (← reverse_bits x)) = .ok x := by
  obtain ⟨y, h1, h2⟩ := c22_reverse x
  obtain ⟨z, h3, h4⟩ := c22_reverse y
  rw [h1]
  simp only [ok_bind]
  rw [h3]
  congr 1
  apply BitVec.eq_of_getLsbD_eq
  intro i hi
  rw [h4 i hi, h2 _ (by omega)]
  congr 1; omega

example : reverse_bits 0x12345678 = .ok 0x1e6a2c48 := by decide

end Verif.Codebook
