import Verif.RoundTrip.Delayed
import Verif.Codebook.Kraft

/-!
# Property C162: samples coded with a codebook

A codec made of the library's parts: the encoder puts its book into the extradata (`put_u32b`) and the codewords of a frame's
samples, behind their number, into a packet; the decoder takes the book from the extradata (`get_u32b`, `Codebook::new`) and
the samples from the packet (`get_bits_32`, `read_cb`).
-/

namespace Verif.RoundTrip
open Verif Verif.Io Verif.Frame Verif.Stream Verif.Packet Verif.Demux Verif.Codec Verif.Codebook

variable {M D : Type}

/-! ### the codec -/

/-- An entry of the book: code, length, symbol. -/
def entryBytes (d : Desc U8) : Rust (List U8) := do
  return (← Bytes.put_u32b [0, 0, 0, 0] (.ofNat 32 d.code)) ++ [.ofNat 8 d.bits, d.sym]

def bookBytes : List (Desc U8) → Rust (List U8)
  | [] => .ok []
  | d :: ds => do return (← entryBytes d) ++ (← bookBytes ds)

/-- The entries again. -/
def bookOf : List U8 → Rust (List (Desc U8))
  | a :: b :: c :: e :: n :: s :: l => do
    let code ← Bytes.get_u32b [a, b, c, e]
    return ⟨code.toNat, n.toNat, s⟩ :: (← bookOf l)
  | _ => .ok []

/-- The codewords of samples. -/
def wordsFor (ds : List (Desc U8)) : List U8 → Option (List (Desc U8))
  | [] => some []
  | v :: l => do
    let d ← (used ds).find? (·.sym = v)
    return d :: (← wordsFor ds l)

/-- Their number in 32 bits, the codewords, and eight bytes more (as `BitRead` asks for), in the order of the mode. -/
def payloadOf (m : Mode) (xs : List (Desc U8)) : List U8 :=
  bytesFor (endianOf m) ((39 + (encode m xs).length) / 8 + 8)
    fun i => (codeBits m xs.length 32 ++ encode m xs).getD i false

/-- The samples of a packet, if all codewords are in the book. -/
def samplesOf (m : Mode) (fuel : Nat) (cb : Codebook U8) (data : List U8) : Rust (Except CodebookError (List U8)) := do
  let r ← BitRead.new (endianOf m) data
  let (n, r) ← BitRead.get_bits_32 (endianOf m) r 32
  let (xs, _) ← readMany (endianOf m) fuel cb n.toNat r
  return xs.mapM id

/-- The encoder's state: its book, and the packet to be received. -/
def codedEncoder (m : Mode) : Encoder (List (Desc U8) × Option Packet) where
  getExtradata s := do return some (← bookBytes s.1)
  sendFrame s f := .ok (match wordsFor s.1 (samples f) with
    | some xs => (.ok (), (s.1, some { Packet.new with data := payloadOf m xs }))
    | none => (.error .InvalidData, s))
  receivePacket s := .ok (match s.2 with
    | some p => (.ok p, (s.1, none))
    | none => (.error .MoreDataNeeded, s))
  flush s := .ok (.ok (), s)
  configure s := .ok (.ok (), s)
  setOption s k _ := .ok (.error (.Unsupported k), s)
  setParams s _ := .ok (.ok (), s)
  getParams _ := .ok (.error .ConfigurationIncomplete)

/-- The decoder's state: the extradata, the book, and the frame to be received. The hash maps of `Codebook::new` are
iterated in the order `ord`. -/
def codedDecoder (ord : Order) (m : Mode) (fuel : Nat) : Decoder (List U8 × Option (Codebook U8) × Option Frame) where
  setExtradata s l := .ok (l, s.2)
  configure s := do
    match ← Codebook.new ord m (← bookOf s.1) with
    | .ok cb => return (.ok (), (s.1, some cb, s.2.2))
    | .error _ => return (.error .ConfigurationInvalid, s)
  sendPacket s p := do
    match s.2.1 with
    | none => return (.error .ConfigurationIncomplete, s)
    | some cb =>
      match ← samplesOf m fuel cb p.data with
      | .ok l => return (.ok (), (s.1, s.2.1, some (pcmFrame l)))
      | .error _ => return (.error .InvalidData, s)
  receiveFrame s := .ok (match s.2.2 with
    | some f => (.ok f, (s.1, s.2.1, none))
    | none => (.error .MoreDataNeeded, s))
  flush s := .ok (.ok (), s)

/-! ### proofs -/

/-- Codes and lengths are of their types. -/
def EntriesFit (ds : List (Desc U8)) : Prop := ∀ d ∈ ds, d.code < 2 ^ 32 ∧ d.bits < 2 ^ 8

instance (ds : List (Desc U8)) : Decidable (EntriesFit ds) := by unfold EntriesFit; infer_instance

theorem book_roundtrip (ds : List (Desc U8)) (h : EntriesFit ds) : ∃ b, bookBytes ds = .ok b ∧ bookOf b = .ok ds := by
  induction ds with
  | nil => exact ⟨[], rfl, rfl⟩
  | cons d ds ih =>
    obtain ⟨b, h1, h2⟩ := ih fun x hx => h x (by simp [hx])
    obtain ⟨hc, hb⟩ := h d (by simp)
    obtain ⟨buf, g1, g2⟩ : ∃ buf, Bytes.put_u32b [0, 0, 0, 0] (.ofNat 32 d.code) = .ok buf ∧
        buf = Bytes.toBe 4 (BitVec.ofNat 32 d.code) := ⟨_, rfl, rfl⟩
    have hback := Bytes.fromBe_toBe 4 (BitVec.ofNat 32 d.code)
    obtain ⟨x0, x1, x2, x3, hx⟩ : ∃ x0 x1 x2 x3, Bytes.toBe 4 (BitVec.ofNat 32 d.code) = [x0, x1, x2, x3] := ⟨_, _, _, _, rfl⟩
    rw [hx] at g2 hback
    subst g2
    refine ⟨[x0, x1, x2, x3, .ofNat 8 d.bits, d.sym] ++ b, ?_, ?_⟩
    · simp only [bookBytes, entryBytes, g1, h1, ok_bind, pure_eq_ok]
      rfl
    · have hg : Bytes.get_u32b [x0, x1, x2, x3] = .ok (Bytes.fromBe 32 [x0, x1, x2, x3]) := rfl
      simp only [List.cons_append, List.nil_append, bookOf, hg, h2, ok_bind, pure_eq_ok]
      rw [show Bytes.fromBe 32 [x0, x1, x2, x3] = BitVec.ofNat 32 d.code from hback]
      rw [BitVec.toNat_ofNat, BitVec.toNat_ofNat, Nat.mod_eq_of_lt hc, Nat.mod_eq_of_lt hb]

theorem wordsFor_some {ds : List (Desc U8)} (l : List U8) (h : ∀ v ∈ l, ∃ d ∈ used ds, d.sym = v) :
    ∃ xs, wordsFor ds l = some xs ∧ xs.length = l.length ∧ (∀ d ∈ xs, d ∈ used ds) ∧ xs.map (·.sym) = l := by
  induction l with
  | nil => exact ⟨[], rfl, rfl, by simp, rfl⟩
  | cons v l ih =>
    obtain ⟨xs, h1, h2, h3, h4⟩ := ih fun w hw => h w (by simp [hw])
    obtain ⟨d, hd, rfl⟩ := h v (by simp)
    cases hf : (used ds).find? (fun x => decide (x.sym = d.sym)) with
    | none => rw [List.find?_eq_none] at hf; exact absurd (decide_eq_true rfl) (hf d hd)
    | some e =>
      refine ⟨e :: xs, ?_, by simp [h2], ?_, ?_⟩
      · simp only [wordsFor, hf, h1, Option.bind_eq_bind, Option.bind_some, Option.pure_def]
      · intro x hx
        rcases List.mem_cons.1 hx with rfl | hx
        · exact List.mem_of_find?_eq_some hf
        · exact h3 x hx
      · have := List.find?_some hf
        simp only [decide_eq_true_eq] at this
        rw [List.map_cons, h4, this]

theorem encode_short {m : Mode} {ds : List (Desc U8)} (hwf : WF m ds) {xs : List (Desc U8)} (h : ∀ d ∈ xs, d ∈ used ds) :
    (encode m xs).length ≤ 255 * xs.length := by
  induction xs with
  | nil => simp [encode]
  | cons d xs ih =>
    have h1 := ih fun x hx => h x (by simp [hx])
    have h2 := (hwf d (h d (by simp))).1
    have h3 : maxLen m ≤ 255 := by cases m <;> decide
    unfold encode at h1 ⊢
    rw [List.flatMap_cons, List.length_append, codeBits_length, List.length_cons]
    omega

theorem mapM_ok (l : List U8) : (l.map fun v => (.ok v : Except CodebookError U8)).mapM id = .ok l := by
  induction l with
  | nil => rfl
  | cons v l ih => rw [List.map_cons, List.mapM_cons, ih]; rfl

theorem samples_back (ord : Order) (hord : ord.Valid) (m : Mode) (ds : List (Desc U8)) (hwf : WF m ds)
    (hpf : PrefixFree m ds) (hfit : Codebook.Fits m ds) (hne : used ds ≠ []) {cb : Codebook U8} (hcb : Codebook.new ord m ds = .ok (.ok cb))
    {fuel : Nat} (hfu : 26 ≤ fuel) {xs : List (Desc U8)} (hxs : ∀ d ∈ xs, d ∈ used ds) (hn : xs.length < 2 ^ 24) :
    samplesOf m fuel cb (payloadOf m xs) = .ok (.ok (xs.map (·.sym))) := by
  have hs := encode_short hwf hxs
  have hlen : (payloadOf m xs).length = (39 + (encode m xs).length) / 8 + 8 := by simp [payloadOf, bytesFor]
  have hall : (codeBits m xs.length 32 ++ encode m xs).length = 32 + (encode m xs).length := by
    rw [List.length_append, codeBits_length]
  have hstream := streamBits_for (endianOf m) ((39 + (encode m xs).length) / 8 + 8) (codeBits m xs.length 32 ++ encode m xs)
    (by rw [hall]; omega) (32 + (encode m xs).length) (by rw [hall]; exact Nat.le_refl _)
  rw [show 32 + (encode m xs).length = (codeBits m xs.length 32 ++ encode m xs).length from hall.symm, List.take_length, hall,
    streamBits_append] at hstream
  have hparts := List.append_inj hstream (by rw [codeBits_length]; simp [streamBits])
  obtain ⟨hp1, hp2⟩ := hparts
  rw [Nat.zero_add] at hp2
  obtain ⟨cb', r0, vs, r, r', a1, a2, a3, a4, _⟩ := c15_sequence ord hord m ds hwf hpf hfit xs hxs hne (payloadOf m xs) [.get32 32]
    ⟨by decide, by simp only [BitRead.reach]; omega, trivial⟩ (by simp only [BitRead.specRun, BitRead.nextPos]; omega)
    (by rw [hlen]; omega) hp2 fuel hfu
  rw [hcb] at a1
  cases a1
  obtain ⟨q0, n1, n2, _, n3⟩ := BitRead.new_spec (endianOf m) (payloadOf m xs)
  rw [a2] at n1
  cases n1
  obtain ⟨r2, b1, _, _⟩ := BitRead.run_within n3 [.get32 32] (by
    rw [n2]; exact ⟨by decide, by simp only [BitRead.reach]; omega, trivial⟩)
  rw [a3, n2] at b1
  simp only [Except.ok.injEq, Prod.mk.injEq] at b1
  have hv : vs = [some xs.length] := by
    rw [b1.1]
    simp only [BitRead.specRun, BitRead.specVal, List.cons.injEq, Option.some.injEq, and_true]
    have h32 : xs.length < 2 ^ 32 := by omega
    exact (streamBits_code h32).1 hp1
  rw [hv] at a3
  simp only [BitRead.run, BitRead.step] at a3
  cases hg : BitRead.get_bits_32 (endianOf m) r0 32 with
  | error e => rw [hg] at a3; cases a3
  | ok y =>
    obtain ⟨n, r1⟩ := y
    rw [hg] at a3
    simp only [ok_bind, pure_eq_ok, Except.ok.injEq, Prod.mk.injEq, List.cons.injEq, Option.some.injEq, and_true] at a3
    obtain ⟨hnn, rfl⟩ := a3
    simp only [samplesOf, a2, ok_bind, hg, hnn, a4, pure_eq_ok, Except.ok.injEq]
    rw [← mapM_ok, List.map_map]
    rfl

/-! ### C162 -/

/-- The frames of C162: fewer than `n` samples that are in the book. -/
def InBook (ds : List (Desc U8)) (n : Nat) (f : Frame) : Prop :=
  ∃ l : List U8, f = pcmFrame l ∧ l.length < n ∧ ∀ v ∈ l, ∃ d ∈ used ds, d.sym = v

/-- The decoder undoes the encoder. -/
theorem coded_decodes (ord : Order) (hord : ord.Valid) (m : Mode) (ds : List (Desc U8)) (hwf : WF m ds)
    (hpf : PrefixFree m ds) (hfit : Codebook.Fits m ds) (hne : used ds ≠ []) (hty : EntriesFit ds) {fuel : Nat} (hfu : 26 ≤ fuel)
    (via : Packet → Packet) (hvia : ∀ p, (via p).data = p.data) (good : Packet → Prop) (n : Nat) (hn : n ≤ 2 ^ 24)
    (hgood : ∀ xs : List (Desc U8), (∀ d ∈ xs, d ∈ used ds) → xs.length < n → good { Packet.new with data := payloadOf m xs })
    {x : List U8} (hx : bookBytes ds = .ok x) :
    ∃ cb, Decodes (codedEncoder m) (codedDecoder ord m fuel) via good (InBook ds n) x (ds, none) ([], none, none)
        fun e d => e = (ds, none) ∧ d = (x, some cb, none) := by
  obtain ⟨x', hx1, hx2⟩ := book_roundtrip ds hty
  rw [hx] at hx1
  cases hx1
  obtain ⟨cb, hcb⟩ : ∃ cb, Codebook.new ord m ds = .ok (.ok cb) := by
    obtain ⟨T, hcb, _⟩ := new_ok hord hwf hpf hfit hne
    exact ⟨_, hcb⟩
  refine ⟨cb, ⟨?_, ?_⟩⟩
  · refine ⟨(x, none, none), _, ?_, rfl, ?_, rfl, rfl⟩
    · simp only [codedEncoder, hx, ok_bind, pure_eq_ok]
    · simp only [codedDecoder, hx2, ok_bind, hcb, pure_eq_ok]
  · rintro e d f ⟨rfl, rfl⟩ ⟨l, rfl, hl, hin⟩
    obtain ⟨xs, w1, w2, w3, w4⟩ := wordsFor_some l hin
    have hs : samples (pcmFrame l) = l := by simp [samples, pcmFrame]
    refine ⟨(ds, some { Packet.new with data := payloadOf m xs }), _, (ds, none), (x, some _, some (pcmFrame l)), _, ?_, rfl,
      hgood xs w3 (by omega), ?_, rfl, rfl, rfl⟩
    · simp only [codedEncoder, hs, w1]
    · have hb := samples_back ord hord m ds hwf hpf hfit hne hcb hfu w3 (by omega)
      simp only [codedDecoder, hvia, hb, ok_bind, pure_eq_ok, w4]

/-- C162. Samples coded with any book of distinct prefix-free codewords, in either bit order: the encoder writes the book
to the extradata and the codewords of each frame to a packet; muxed and demuxed as in C106, the decoder that builds the
book from the extradata gives back the same frames, in whatever order the hash maps of `Codebook::new` are iterated. -/
theorem c162_coded (ord : Order) (hord : ord.Valid) (mode : Mode) (ds : List (Desc U8)) (hwf : WF mode ds)
    (hpf : PrefixFree mode ds) (hfit : Codebook.Fits mode ds) (hne : used ds ≠ []) (hty : EntriesFit ds)
    (cfuel : Nat) (hfu : 26 ≤ cfuel)
    (eds : List (Codec.Descriptor (List (Desc U8) × Option Packet)))
    (dds : List (Codec.Descriptor (List U8 × Option (Codebook U8) × Option Frame))) (ename dname : String) (ei di : Nat)
    (edesc ddesc : Codec.Descr)
    (hed : eds[ei]? = some ⟨(ds, none), edesc⟩ ∧ edesc.codec = ename ∧
      ∀ j e, j < ei → eds[j]? = some e → e.describe.codec ≠ ename)
    (hdd : dds[di]? = some ⟨([], none, none), ddesc⟩ ∧ ddesc.codec = dname ∧
      ∀ j e, j < di → dds[j]? = some e → e.describe.codec ≠ dname)
    (F : Format D) (hF : F.Framed) (hdr : M → List U8 × M) (pkt : M → Packet → List U8 × M)
    (trl : M → List U8 × M) (wire : Packet → Packet) (info : GlobalInfo) (m : M) (d : D) (good : Packet → Prop)
    (sync : M → D → Prop) (h : Undoes F hdr pkt trl wire info m d good sync) (hw : ∀ p, (wire p).data = p.data)
    (n : Nat) (hn : n ≤ 2 ^ 24)
    (hgood : ∀ xs : List (Desc U8), (∀ d ∈ xs, d ∈ used ds) → xs.length < n → good { Packet.new with data := payloadOf mode xs })
    (x : List U8) (hbook : bookBytes ds = .ok x)
    (hx : ∃ st, info.streams[0]? = some st ∧ st.params.extradata = some x)
    (fs : List (List U8)) (hfs : ∀ l ∈ fs, l.length < n ∧ ∀ v ∈ l, ∃ d ∈ used ds, d.sym = v)
    (sink : Sink) (h0 : sink.data = [] ∧ sink.pos = 0)
    (hq : ∀ c, (sink.script c).fail = none ∧ 0 < (sink.script c).len)
    (acts : Nat → Act) (ha : ∀ c, (acts c).fail = none) (cap k : Nat) :
    ∃ ce cd, EncContext.byName (Codecs.fromList eds) ename = .ok (some ce) ∧
      DecContext.byName (Codecs.fromList dds) dname = .ok (some cd) ∧
    ∃ (ps : List Packet) (ce' : EncContext (List (Desc U8) × Option Packet)), ps.length = fs.length ∧
      ce.run (codedEncoder mode) (.extradata :: fs.flatMap fun l => [.send (pcmFrame l), .receive]) =
        .ok (.extradata (some x) :: ps.flatMap fun p => [.unit (.ok ()), .packet (.ok p)], ce') ∧
    ∀ fuel, (Mux.fileBytes hdr pkt trl m ps).length < fuel →
    ∃ c, (Mux.Context.new m (Mux.Writer.new sink)).run Mux.sinkOps (Mux.bytesMuxer fuel hdr pkt trl)
        (.header :: ps.map .packet ++ [.trailer]) = .ok (List.replicate (ps.length + 2) (.ok ()), c) ∧
    ∀ file, c.intoWriter.writer.data = file →
    ∃ c1 c2 st y evs cd', readHeaders F.demuxer accBuffered (file.length + 2)
          (Context.new d (Acc.withCapacity cap ⟨file, 0, acts, 0⟩)) = .ok (.ok (), c1) ∧
      readEvents F.demuxer accBuffered (file.length + 1) (ps.length + k) c1 = .ok (evs, c2) ∧
      c1.info.streams[0]? = some st ∧ st.params.extradata = some y ∧
      cd.run (codedDecoder ord mode cfuel) (.extradata y :: .configure :: (packetsOf evs).flatMap fun p => [.send p, .receive]) =
        .ok (.none :: .unit (.ok ()) :: fs.flatMap fun l => [.unit (.ok ()), .frame (.ok (pcmFrame l))], cd') := by
  obtain ⟨cb, hc⟩ := coded_decodes ord hord mode ds hwf hpf hfit hne hty hfu (kept info.streams wire) (fun p => hw p) good n hn
    hgood hbook
  have := c106_pipeline (codedEncoder mode) (codedDecoder ord mode cfuel) eds dds ename dname ei di _ _ hed hdd F hF hdr pkt trl
    wire info m d good sync h (InBook ds n) x _ hc hx (fs.map pcmFrame) (by
      intro f hf
      obtain ⟨l, hl, rfl⟩ := List.mem_map.1 hf
      exact ⟨l, rfl, hfs l hl⟩) sink h0 hq acts ha cap k
  simpa only [List.flatMap_map, List.length_map] using this

/-! ### example: a book of three codewords, in the format of C91's examples -/

def smallBook : List (Desc U8) := [⟨0, 1, 7⟩, ⟨2, 2, 8⟩, ⟨3, 2, 9⟩]

def smallBytes : List U8 := [0, 0, 0, 0, 1, 7, 0, 0, 0, 2, 2, 8, 0, 0, 0, 3, 2, 9]

def codedInfo : GlobalInfo :=
  ⟨none, none, [{ Stream.fromParams { sampleParams with extradata := some smallBytes } ⟨1, 25⟩ with id := 0 }]⟩

def codedFormat : Format Unit := { avFormat with
  head := fun _ _ w => match w with
    | 65 :: 86 :: _ => some (2, (), codedInfo)
    | _ => none }

theorem coded_framed : codedFormat.Framed where
  headStable d i w u x h := by
    simp only [codedFormat] at h ⊢
    split at h
    · simpa using h
    · cases h
  headNeed _ _ _ _ := by simp [codedFormat, avFormat]
  stable := av_framed.stable
  need := av_framed.need
  answers := av_framed.answers

theorem coded_undoes : Undoes codedFormat avHdr avPkt avTrl (fun p => { Packet.new with data := p.data, stream_index := 0 })
    codedInfo 0 () (fun p => 0 < p.data.length ∧ p.data.length < 256) (fun _ _ => True) where
  header := ⟨(), rfl, trivial⟩
  packet := av_undoes.packet
  trailer := av_undoes.trailer

/-- The hypotheses of C162 on the book. -/
example : WF .msb smallBook ∧ PrefixFree .msb smallBook ∧ Codebook.Fits .msb smallBook ∧ used smallBook ≠ [] ∧
    EntriesFit smallBook ∧ bookBytes smallBook = .ok smallBytes ∧
    (∃ st, codedInfo.streams[0]? = some st ∧ st.params.extradata = some smallBytes) ∧
    ∀ l ∈ [[7, 8, 9, 9, 7], [8], []], l.length < 100 ∧ ∀ v ∈ l, ∃ d ∈ used smallBook, d.sym = v := by
  refine ⟨by decide, by decide, by decide, by decide, by decide, by decide, ⟨_, rfl, rfl⟩, by decide⟩

/-- Its packets of fewer than 100 samples fit into the records of the format. -/
example (xs : List (Desc U8)) (h : ∀ d ∈ xs, d ∈ used smallBook) (hn : xs.length < 100) :
    0 < (payloadOf .msb xs).length ∧ (payloadOf .msb xs).length < 256 := by
  have hlen : (payloadOf .msb xs).length = (39 + (encode .msb xs).length) / 8 + 8 := by simp [payloadOf, bytesFor]
  have : (encode .msb xs).length ≤ 2 * xs.length := by
    clear hlen hn
    induction xs with
    | nil => simp [encode]
    | cons d xs ih =>
      have h1 := ih fun x hx => h x (by simp [hx])
      have h2 : ∀ d ∈ used smallBook, d.bits ≤ 2 := by decide
      have h3 := h2 d (h d (by simp))
      unfold encode at h1 ⊢
      rw [List.flatMap_cons, List.length_append, codeBits_length, List.length_cons]
      omega
  omega

/-- The codewords of 7, 8, 9 behind their number: `0 10 11`. -/
example : (wordsFor smallBook [7, 8, 9]).map (payloadOf .msb) = some [0, 0, 0, 3, 0x58, 0, 0, 0, 0, 0, 0, 0, 0] := by decide

/-- And read back; `11 10 0` in their place is 9, 8, 7. -/
example : (match Codebook.new insOrder .msb smallBook with
    | .ok (.ok cb) => [samplesOf .msb 26 cb [0, 0, 0, 3, 0x58, 0, 0, 0, 0, 0, 0, 0, 0],
        samplesOf .msb 26 cb [0, 0, 0, 3, 0xe0, 0, 0, 0, 0, 0, 0, 0, 0]]
    | _ => []) = [.ok (.ok [7, 8, 9]), .ok (.ok [9, 8, 7])] := by decide +kernel

end Verif.RoundTrip
