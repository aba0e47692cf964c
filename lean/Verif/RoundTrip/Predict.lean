import Verif.RoundTrip.Delayed
import Verif.Frame.Props

/-!
# Property C170: pictures coded by their differences, and losing some of them

A video codec made of the library's parts: the encoder copies a frame's picture out (`copy_frame_to_buffer`) and codes it by itself
(`FrameType::I`, `is_key`), by its differences from the one before (`P`), or as the same one again (`SKIP`). The decoder remembers the last
picture, forgets it when flushed, and copies what it shows into default frames (`copy_from_slice`). The player flushes the decoder
where a packet is corrupted (`is_corrupted`) and goes on with the next.
-/

namespace Verif.RoundTrip
open Verif Verif.Io Verif.Frame Verif.Stream Verif.Packet Verif.Demux Verif.Codec

variable {M D R : Type}

/-! ### the codec -/

/-- The picture of each component, row by row. -/
abbrev Pic := List (List U8)

/-- Buffers for a picture whose components have the dimensions `dims`. -/
def blank (dims : List (Nat × Nat)) : Pic := dims.map fun d => List.replicate (d.1 * d.2) 0

def strides (dims : List (Nat × Nat)) : List Nat := dims.map (·.1)

/-- How a picture is coded behind the last one, if `req` is asked for: by itself, as the last one again, or by its differences. -/
def coded (req : FrameType) (last : Option Pic) (P : Pic) : FrameType × List U8 :=
  match last with
  | none => (.I, 0 :: P.flatten)
  | some Q =>
    if req = .I then (.I, 0 :: P.flatten)
    else if P = Q then (.SKIP, [2])
    else (.P, 1 :: List.zipWith (· - ·) P.flatten Q.flatten)

/-- Its packet. -/
def packetFor (c : FrameType × List U8) (t : TimeInfo) : Packet :=
  { Packet.new with data := c.2, t := t, is_key := decide (c.1 = .I) }

/-- The encoder's state: the last picture, and the packets to be received. Its extradata is `x`. -/
def videoEncoder (dims : List (Nat × Nat)) (x : List U8) : Encoder (Option Pic × List Packet) where
  getExtradata _ := .ok (some x)
  sendFrame e f :=
    match f.kind with
    | .Audio _ => .ok (.error .InvalidData, e)
    | .Video v => do
      let P ← copyFrameToBuffer f (blank dims) (strides dims)
      return (.ok (), some P, e.2 ++ [packetFor (coded v.frame_type e.1 P) f.t])
  receivePacket e := .ok (match e.2 with
    | [] => (.error .MoreDataNeeded, e)
    | p :: q => (.ok p, e.1, q))
  flush e := .ok (.ok (), none, e.2)
  configure e := .ok (.ok (), e)
  setOption e k _ := .ok (.error (.Unsupported k), e)
  setParams e _ := .ok (.ok (), e)
  getParams _ := .ok (.error .ConfigurationIncomplete)

/-- The components of a picture. -/
def parts : List (Nat × Nat) → List U8 → Pic
  | [], _ => []
  | d :: ds, l => l.take (d.1 * d.2) :: parts ds (l.drop (d.1 * d.2))

/-- The picture a packet stands for, if it can be told. -/
def decoded (dims : List (Nat × Nat)) (last : Option Pic) (data : List U8) : Option (FrameType × Pic) :=
  match data, last with
  | 0 :: l, _ => if l.length = (dims.map fun d => d.1 * d.2).sum then some (.I, parts dims l) else none
  | 1 :: l, some Q => if l.length = (dims.map fun d => d.1 * d.2).sum then
      some (.P, parts dims (List.zipWith (· + ·) l Q.flatten)) else none
  | [2], some Q => some (.SKIP, Q)
  | _, _ => none

/-- A frame that shows the picture. -/
def paint (v : Frame.VideoInfo) (dims : List (Nat × Nat)) (ty : FrameType) (t : TimeInfo) (P : Pic) : Rust Frame := do
  let f ← newDefaultFrame (.Video { v with frame_type := ty }) (some t)
  copyFromSlice f P (strides dims)

/-- The decoder's state: the extradata, the last picture, and the frames to be received. A packet that stands for no picture is passed
over. -/
def videoDecoder (v : Frame.VideoInfo) (dims : List (Nat × Nat)) (x : List U8) : Decoder (List U8 × Option Pic × List Frame) where
  setExtradata d l := .ok (l, d.2)
  configure d := .ok (if d.1 = x then .ok () else .error .ConfigurationInvalid, d)
  sendPacket d p :=
    match decoded dims d.2.1 p.data with
    | none => .ok (.ok (), d.1, none, d.2.2)
    | some (ty, P) => do
      let f ← paint v dims ty p.t P
      return (.ok (), d.1, some P, d.2.2 ++ [f])
  receiveFrame d := .ok (match d.2.2 with
    | [] => (.error .MoreDataNeeded, d)
    | f :: q => (.ok f, d.1, d.2.1, q))
  flush d := .ok (.ok (), d.1, none, d.2.2)

/-- `decodeAll` that flushes the decoder at a corrupted packet and does not send it (packet.rs:24-25). -/
def playChecked {C : Type} (dc : Decoder C) (dm : Demuxer D R) (bf : Buffered R) (fuel k : Nat) : Nat → DecContext C → Context D R →
    Rust (Except AppErr (List Frame) × DecContext C × Context D R)
  | 0, _, _ => .error .fuel
  | n + 1, cd, c => do
    match ← readEvent dm bf fuel c with
    | (.error e, c) => .ok (.error (.format e), cd, c)
    | (.ok (.NewPacket p), c) =>
      if p.is_corrupted then
        match ← cd.flush dc with
        | (.error e, cd) => .ok (.error (.codec e), cd, c)
        | (.ok (), cd) => playChecked dc dm bf fuel k n cd c
      else
        match ← cd.sendPacket dc p with
        | (.error e, cd) => .ok (.error (.codec e), cd, c)
        | (.ok (), cd) =>
          match ← drainFrames dc k cd with
          | (.error e, cd) => .ok (.error e, cd, c)
          | (.ok fs, cd) =>
            match ← playChecked dc dm bf fuel k n cd c with
            | (.ok gs, r) => .ok (.ok (fs ++ gs), r)
            | (.error e, r) => .ok (.error e, r)
    | (.ok .Eof, c) => .ok (.ok [], cd, c)
    | (.ok _, c) => playChecked dc dm bf fuel k n cd c

/-- A player that goes to another place: the decoder is flushed before it is sent what is there. -/
def playFrom {C : Type} (dc : Decoder C) (dm : Demuxer D R) (bf : Buffered R) (fuel k n : Nat) (cd : DecContext C) (c : Context D R) :
    Rust (Except AppErr (List Frame) × DecContext C × Context D R) := do
  match ← cd.flush dc with
  | (.error e, cd) => .ok (.error (.codec e), cd, c)
  | (.ok (), cd) => playChecked dc dm bf fuel k n cd c

/-! ### specification -/

/-- What a frame shows, read byte by byte. -/
def picture (dims : List (Nat × Nat)) (f : Frame) : Pic :=
  List.zipWith (fun p d => (List.range (d.1 * d.2)).map fun i => p.buf.getD (i / d.1 * p.linesize + i % d.1) 0) f.planes dims

/-- Frames of the kind the codec is for: their planes have room for components of the dimensions `dims`. -/
def Footage (v : Frame.VideoInfo) (dims : List (Nat × Nat)) (f : Frame) : Prop :=
  (∃ ty, f.kind = .Video { v with frame_type := ty }) ∧ AllRoomy (f.planes.map (·.buf)) (f.planes.map (·.linesize)) dims

/-- Default frames are such frames, whatever their type. -/
def Plain (v : Frame.VideoInfo) (dims : List (Nat × Nat)) : Prop :=
  DimsOf v.width v.height v.format.comp_info dims ∧ (∀ d ∈ dims, 0 < d.1) ∧
  ∀ ty t, ∃ f, newDefaultFrame (.Video { v with frame_type := ty }) (some t) = .ok f ∧ f.t = t ∧
    f.kind = .Video { v with frame_type := ty } ∧ AllRoomy (f.planes.map (·.buf)) (f.planes.map (·.linesize)) dims

/-- The type a frame asks for. -/
def wanted (f : Frame) : Option FrameType := f.kind.getVideoInfo.map (·.frame_type)

/-- How frame `i` is coded: by itself if it is the first or asks for it, else as the one before if it shows the same. -/
def typeAt (dims : List (Nat × Nat)) (fs : List Frame) (i : Nat) : FrameType :=
  if i = 0 ∨ fs[i]?.bind wanted = some .I then .I
  else if fs[i]?.map (picture dims) = fs[i - 1]?.map (picture dims) then .SKIP else .P

/-- Packet `i` is corrupted. -/
def Lost (qs : List Packet) (i : Nat) : Prop := ∃ q, qs[i]? = some q ∧ q.is_corrupted = true

/-- Nothing is lost between frame `i` and a frame before it, or itself, that is coded by itself. -/
def Seen (dims : List (Nat × Nat)) (fs : List Frame) (qs : List Packet) (i : Nat) : Prop :=
  ∃ j, j ≤ i ∧ typeAt dims fs j = .I ∧ ∀ k, j ≤ k → k ≤ i → ¬ Lost qs k

/-- The frames seen: their descriptions, times and pictures. -/
inductive Presents (v : Frame.VideoInfo) (dims : List (Nat × Nat)) (fs : List Frame) (qs : List Packet) : Nat → List Frame → Prop
  | done {i} : fs.length ≤ i → Presents v dims fs qs i []
  | skip {i gs} : i < fs.length → ¬ Seen dims fs qs i → Presents v dims fs qs (i + 1) gs → Presents v dims fs qs i gs
  | show {i g gs f q} : Seen dims fs qs i → fs[i]? = some f → qs[i]? = some q →
      g.kind = .Video { v with frame_type := typeAt dims fs i } → g.t = q.t → picture dims g = picture dims f →
      Presents v dims fs qs (i + 1) gs → Presents v dims fs qs i (g :: gs)

/-! ### proofs: pictures -/

/-- A picture of the right size. -/
def Tight (dims : List (Nat × Nat)) (P : Pic) : Prop := P.map List.length = dims.map fun d => d.1 * d.2

theorem cell {cw ch i : Nat} (h : i < cw * ch) : 0 < cw ∧ i / cw < ch ∧ i % cw < cw ∧ i / cw * cw + i % cw = i := by
  have hcw : 0 < cw := Nat.pos_of_ne_zero fun e => by simp [e] at h
  exact ⟨hcw, Nat.div_lt_of_lt_mul h, Nat.mod_lt _ hcw, by rw [Nat.mul_comm]; exact Nat.div_add_mod i cw⟩

theorem grab_plane {cw ch ls : Nat} {buf o : List U8} (h : Shows (List.replicate (cw * ch) 0) cw buf ls cw ch o) :
    o = (List.range (cw * ch)).map fun i => buf.getD (i / cw * ls + i % cw) 0 := by
  obtain ⟨h1, h2, _⟩ := h
  rw [List.length_replicate] at h1
  apply List.ext_getElem?
  intro i
  by_cases hi : i < cw * ch
  · obtain ⟨_, a, b, c⟩ := cell hi
    have := h2 _ a _ b
    rw [c, List.getElem?_eq_getElem (by omega)] at this
    rw [List.getElem?_eq_getElem (by omega), List.getElem?_map, List.getElem?_range hi, Option.map_some, List.getD_eq_getElem?_getD, ← this]
    rfl
  · rw [List.getElem?_eq_none (by omega), List.getElem?_eq_none (by simp; omega)]

theorem show_plane {cw ch ls : Nat} {old s o : List U8} (h : Shows old ls s cw cw ch o) (hs : s.length = cw * ch) :
    ((List.range (cw * ch)).map fun i => o.getD (i / cw * ls + i % cw) 0) = s := by
  obtain ⟨_, h2, _⟩ := h
  apply List.ext_getElem?
  intro i
  by_cases hi : i < cw * ch
  · obtain ⟨_, a, b, c⟩ := cell hi
    have := h2 _ a _ b
    rw [c] at this
    rw [List.getElem?_map, List.getElem?_range hi, Option.map_some, List.getD_eq_getElem?_getD, this,
      List.getElem?_eq_getElem (by omega)]
    rfl
  · rw [List.getElem?_eq_none (by simp; omega), List.getElem?_eq_none (by omega)]

theorem grab_planes : ∀ (dims : List (Nat × Nat)) (ps : List Plane) (out : Pic),
    AllShow (blank dims) (strides dims) (ps.map (·.buf)) (ps.map (·.linesize)) dims out →
    out = List.zipWith (fun p d => (List.range (d.1 * d.2)).map fun i => p.buf.getD (i / d.1 * p.linesize + i % d.1) 0) ps dims
  | [], ps, out, h => by
    cases ps <;> cases out <;> first | rfl | exact h.elim
  | (cw, ch) :: dims, ps, out, h => by
    cases ps <;> cases out <;> first | exact h.elim | skip
    rw [List.zipWith_cons_cons, ← grab_planes dims _ _ h.2, ← grab_plane h.1]

theorem show_planes : ∀ (dims : List (Nat × Nat)) (old : Pic) (ps : List Plane) (P : Pic),
    AllShow old (ps.map (·.linesize)) P (strides dims) dims (ps.map (·.buf)) → Tight dims P →
    List.zipWith (fun p d => (List.range (d.1 * d.2)).map fun i => p.buf.getD (i / d.1 * p.linesize + i % d.1) 0) ps dims = P
  | [], old, ps, P, h, _ => by
    cases old <;> cases ps <;> cases P <;> first | rfl | exact h.elim
  | (cw, ch) :: dims, old, ps, P, h, ht => by
    cases old <;> cases ps <;> cases P <;> first | exact h.elim | skip
    simp only [Tight, List.map_cons, List.cons.injEq] at ht
    rw [List.zipWith_cons_cons, show_planes dims _ _ _ h.2 ht.2, show_plane h.1 ht.1]

theorem roomy_of_length {cw ch len : Nat} (h : 0 < cw) (hl : len = cw * ch) : Roomy len cw cw ch := by
  refine ⟨h, Nat.le_refl _, fun y hy => ?_⟩
  have : (y + 1) * cw ≤ ch * cw := Nat.mul_le_mul_right _ hy
  rw [Nat.succ_mul, Nat.mul_comm ch] at this
  omega

theorem tight_roomy : ∀ (dims : List (Nat × Nat)) (P : Pic), Tight dims P → (∀ d ∈ dims, 0 < d.1) → AllRoomy P (strides dims) dims
  | [], P, h, _ => by
    cases P with
    | nil => trivial
    | cons a P => simp [Tight] at h
  | (cw, ch) :: dims, P, h, hp => by
    cases P with
    | nil => simp [Tight] at h
    | cons a P =>
      simp only [Tight, List.map_cons, List.cons.injEq] at h
      exact ⟨roomy_of_length (hp (cw, ch) (by simp)) h.1, tight_roomy dims P h.2 fun d hd => hp d (by simp [hd])⟩

theorem tight_blank (dims : List (Nat × Nat)) : Tight dims (blank dims) := by
  simp [Tight, blank, Function.comp_def]

theorem tight_picture {dims : List (Nat × Nat)} {f : Frame}
    (h : AllRoomy (f.planes.map (·.buf)) (f.planes.map (·.linesize)) dims) : Tight dims (picture dims f) := by
  unfold picture Tight
  generalize f.planes = ps at h
  induction dims generalizing ps with
  | nil => cases ps <;> first | rfl | exact h.elim
  | cons d dims ih =>
    cases ps with
    | nil => exact h.elim
    | cons p ps => rw [List.zipWith_cons_cons, List.map_cons, ih ps h.2, List.map_cons, List.length_map, List.length_range]

/-- The encoder copies out what is to be seen. -/
theorem grab {v : Frame.VideoInfo} {dims : List (Nat × Nat)} (hd : Plain v dims) {f : Frame} (hf : Footage v dims f) :
    copyFrameToBuffer f (blank dims) (strides dims) = .ok (picture dims f) := by
  obtain ⟨ty, hk⟩ := hf.1
  obtain ⟨⟨out, h1, h2⟩, _⟩ := c49_copies f _ hk dims hd.1 hf.2 (blank dims) (strides dims)
    (tight_roomy dims _ (tight_blank dims) hd.2.1)
  rw [h1, grab_planes dims f.planes out h2]
  rfl

/-- The decoder's frames show the picture. -/
theorem paint_ok {v : Frame.VideoInfo} {dims : List (Nat × Nat)} (hd : Plain v dims) (ty : FrameType) (t : TimeInfo) {P : Pic}
    (hP : Tight dims P) :
    ∃ f, paint v dims ty t P = .ok f ∧ f.kind = .Video { v with frame_type := ty } ∧ f.t = t ∧ picture dims f = P := by
  obtain ⟨f, a1, a2, a3, a4⟩ := hd.2.2 ty t
  obtain ⟨_, f', b1, b2, b3, b4, b5⟩ := c49_copies f _ a3 dims hd.1 a4 P (strides dims) (tight_roomy dims P hP hd.2.1)
  refine ⟨f', by simp only [paint, a1, ok_bind, b1], by rw [b2, a3], by rw [b3, a2], ?_⟩
  rw [← b4] at b5
  exact show_planes dims _ f'.planes P b5 hP

/-! ### proofs: packets -/

theorem parts_flatten : ∀ (dims : List (Nat × Nat)) (P : Pic), Tight dims P → parts dims P.flatten = P
  | [], P, h => by cases P <;> simp [Tight] at h; rfl
  | d :: dims, P, h => by
    cases P with
    | nil => simp [Tight] at h
    | cons a P =>
      simp only [Tight, List.map_cons, List.cons.injEq] at h
      rw [List.flatten_cons, parts, ← h.1, List.take_left, List.drop_left, parts_flatten dims P h.2]

theorem flatten_length {dims : List (Nat × Nat)} {P : Pic} (h : Tight dims P) :
    P.flatten.length = (dims.map fun d => d.1 * d.2).sum := by
  rw [List.length_flatten, h]

theorem sub_add : ∀ (a b : List U8), a.length = b.length → List.zipWith (· + ·) (List.zipWith (· - ·) a b) b = a
  | [], [], _ => rfl
  | x :: a, y :: b, h => by
    rw [List.zipWith_cons_cons, List.zipWith_cons_cons, sub_add a b (by simpa using h), BitVec.sub_add_cancel]

/-- A picture coded by itself. -/
theorem decoded_key {dims : List (Nat × Nat)} {P : Pic} (h : Tight dims P) (last : Option Pic) :
    decoded dims last (0 :: P.flatten) = some (.I, P) := by
  show (if P.flatten.length = (dims.map fun d => d.1 * d.2).sum then some (FrameType.I, parts dims P.flatten) else none) = _
  rw [if_pos (flatten_length h), parts_flatten dims P h]

/-- One coded behind another, by a decoder that has this. -/
theorem decoded_coded {dims : List (Nat × Nat)} {P Q : Pic} (hP : Tight dims P) (hQ : Tight dims Q) (req : FrameType) :
    decoded dims (some Q) (coded req (some Q) P).2 = some ((coded req (some Q) P).1, P) := by
  unfold coded
  simp only
  split
  · exact decoded_key hP _
  · split
    · rename_i e; simp [decoded, e]
    · have := flatten_length hP
      have h2 := flatten_length hQ
      show (if (List.zipWith (· - ·) P.flatten Q.flatten).length = (dims.map fun d => d.1 * d.2).sum then
        some (FrameType.P, parts dims (List.zipWith (· + ·) (List.zipWith (· - ·) P.flatten Q.flatten) Q.flatten)) else none) = _
      rw [List.length_zipWith, if_pos (by omega), sub_add _ _ (this.trans h2.symm), parts_flatten dims P hP]

/-- And by one that has none. -/
theorem decoded_blind {dims : List (Nat × Nat)} {P Q : Pic} {req : FrameType} (h : (coded req (some Q) P).1 ≠ .I) :
    decoded dims none (coded req (some Q) P).2 = none := by
  unfold coded at h ⊢
  simp only at h ⊢
  split
  · rename_i e; rw [if_pos e] at h; exact absurd rfl h
  · split <;> rfl

theorem parts_tight : ∀ (dims : List (Nat × Nat)) (l : List U8), l.length = (dims.map fun d => d.1 * d.2).sum → Tight dims (parts dims l)
  | [], _, _ => rfl
  | d :: dims, l, h => by
    rw [List.map_cons, List.sum_cons] at h
    have := parts_tight dims (l.drop (d.1 * d.2)) (by rw [List.length_drop]; omega)
    simp only [Tight, parts, List.map_cons, List.length_take, List.cons.injEq]
    exact ⟨by omega, this⟩

theorem decoded_tight {dims : List (Nat × Nat)} {s : Option Pic} {data : List U8} {ty : FrameType} {P : Pic}
    (h : decoded dims s data = some (ty, P)) (hs : ∀ Q, s = some Q → Tight dims Q) : Tight dims P := by
  unfold decoded at h
  split at h
  · split at h
    · cases h; exact parts_tight _ _ (by assumption)
    · cases h
  · rename_i Q
    split at h
    · rename_i hl
      cases h
      have := flatten_length (hs Q rfl)
      exact parts_tight _ _ (by rw [List.length_zipWith]; omega)
    · cases h
  · cases h; exact hs _ rfl
  · cases h

/-! ### proofs: the codec -/

/-- The encoder as a function. -/
def encMachine (dims : List (Nat × Nat)) : Machine (Option Pic) Frame Packet where
  step s f := ([packetFor (coded ((wanted f).getD .OTHER) s (picture dims f)) f.t], some (picture dims f))
  finish _ := []

/-- The frame a packet gives. -/
def decStep (v : Frame.VideoInfo) (dims : List (Nat × Nat)) (s : Option Pic) (p : Packet) : List Frame × Option Pic :=
  match decoded dims s p.data with
  | none => ([], none)
  | some (ty, P) => ((paint v dims ty p.t P).toOption.toList, some P)

/-- The decoder as a function. -/
def decMachine (v : Frame.VideoInfo) (dims : List (Nat × Nat)) : Machine (Option Pic) Packet Frame where
  step := decStep v dims
  finish _ := []

theorem video_encodes {v : Frame.VideoInfo} {dims : List (Nat × Nat)} (hd : Plain v dims) (x : List U8) :
    Encodes (videoEncoder dims x) (encMachine dims) (Footage v dims) (fun e s q => e = (s, q)) where
  send := by
    rintro e s q f rfl hf
    obtain ⟨ty, hk⟩ := hf.1
    refine ⟨_, ?_, rfl⟩
    simp only [videoEncoder, hk, grab hd hf, ok_bind, pure_eq_ok, encMachine, wanted, MediaKind.getVideoInfo, Option.map_some,
      Option.getD_some]
  receive := by rintro e s p q rfl; exact ⟨_, rfl, rfl⟩
  empty := by rintro e s rfl; exact ⟨_, rfl, rfl⟩
  flush := by
    rintro e s q rfl
    exact ⟨_, none, rfl, by simp [encMachine]⟩

/-- What `send_packet` does. -/
theorem video_send {v : Frame.VideoInfo} {dims : List (Nat × Nat)} (hd : Plain v dims) (x : List U8) {s : Option Pic}
    (hs : ∀ Q, s = some Q → Tight dims Q) (q : List Frame) (p : Packet) :
    (videoDecoder v dims x).sendPacket (x, s, q) p = .ok (.ok (), x, (decStep v dims s p).2, q ++ (decStep v dims s p).1) ∧
      ∀ Q, (decStep v dims s p).2 = some Q → Tight dims Q := by
  cases hdec : decoded dims s p.data with
  | none =>
    simp only [videoDecoder, decStep, hdec, List.append_nil]
    exact ⟨trivial, fun _ h => nomatch h⟩
  | some y =>
    obtain ⟨ty, P⟩ := y
    have hP := decoded_tight hdec hs
    obtain ⟨f, a, _⟩ := paint_ok hd ty p.t hP
    refine ⟨?_, ?_⟩
    · simp only [videoDecoder, decStep, hdec, a, ok_bind, pure_eq_ok]; rfl
    · simp only [decStep, hdec]
      intro Q e
      cases e
      exact hP

theorem video_decodes {v : Frame.VideoInfo} {dims : List (Nat × Nat)} (hd : Plain v dims) (x : List U8) :
    DecodesAll (videoDecoder v dims x) (decMachine v dims) (fun d s q => d = (x, s, q) ∧ ∀ Q, s = some Q → Tight dims Q) where
  send := by
    rintro d s q p ⟨rfl, hs⟩
    obtain ⟨a, b⟩ := video_send hd x hs q p
    exact ⟨_, a, rfl, b⟩
  receive := by rintro d s f q ⟨rfl, hs⟩; exact ⟨_, rfl, rfl, hs⟩
  empty := by rintro d s ⟨rfl, hs⟩; exact ⟨_, rfl, rfl, hs⟩
  flush := by
    rintro d s q ⟨rfl, hs⟩
    exact ⟨_, none, rfl, by simp [decMachine], fun _ h => nomatch h⟩

/-- What is seen of packets. -/
def watch (v : Frame.VideoInfo) (dims : List (Nat × Nat)) : Option Pic → List Packet → List Frame
  | _, [] => []
  | s, p :: ps =>
    if p.is_corrupted then watch v dims none ps else (decStep v dims s p).1 ++ watch v dims (decStep v dims s p).2 ps

theorem all_watch {v : Frame.VideoInfo} {dims : List (Nat × Nat)} : ∀ (s : Option Pic) (ps : List Packet),
    (∀ p ∈ ps, p.is_corrupted = false) → (decMachine v dims).all s ps = watch v dims s ps
  | _, [], _ => rfl
  | s, p :: ps, h => by
    have := all_watch (v := v) (dims := dims) (decStep v dims s p).2 ps fun q hq => h q (by simp [hq])
    simp only [Machine.all, watch, h p (by simp), Bool.false_eq_true, if_false]
    rw [← this]
    rfl

theorem decStep_short (v : Frame.VideoInfo) (dims : List (Nat × Nat)) (s : Option Pic) (p : Packet) :
    (decStep v dims s p).1.length ≤ 1 := by
  unfold decStep
  split
  · simp
  · rename_i ty P _
    cases (paint v dims ty p.t P).toOption <;> simp

theorem playChecked_run {v : Frame.VideoInfo} {dims : List (Nat × Nat)} (hd : Plain v dims) (x : List U8) {dm : Demuxer D R}
    {bf : Buffered R} {fuel b : Nat} (hb : 1 < b) (ps : List Packet) :
    ∀ (n : Nat) (s : Option Pic) (c c' : Context D R), ps.length < n → (∀ Q, s = some Q → Tight dims Q) →
    readEvents dm bf fuel (ps.length + 1) c = .ok (ps.map (fun p => .ok (.NewPacket p)) ++ [.ok .Eof], c') →
    ∃ d', playChecked (videoDecoder v dims x) dm bf fuel b n ⟨x, s, []⟩ c = .ok (.ok (watch v dims s ps), d', c') := by
  induction ps with
  | nil =>
    intro n s c c' hn hs hr
    obtain ⟨k, rfl⟩ : ∃ k, n = k + 1 := ⟨n - 1, by simp at hn; omega⟩
    simp only [List.length_nil, readEvents] at hr
    cases he : readEvent dm bf fuel c with
    | error er => rw [he] at hr; cases hr
    | ok r =>
      obtain ⟨y, c1⟩ := r
      rw [he] at hr
      cases hr
      exact ⟨_, by simp only [playChecked, he, ok_bind, watch]; rfl⟩
  | cons p ps ih =>
    intro n s c c' hn hs hr
    obtain ⟨k, rfl⟩ : ∃ k, n = k + 1 := ⟨n - 1, by simp at hn; omega⟩
    rw [List.length_cons] at hr
    simp only [readEvents] at hr
    cases he : readEvent dm bf fuel c with
    | error er => rw [he] at hr; cases hr
    | ok r =>
      obtain ⟨y, c1⟩ := r
      simp only [he, ok_bind] at hr
      cases he2 : readEvents dm bf fuel (ps.length + 1) c1 with
      | error er =>
        simp only [readEvents] at he2
        rw [he2] at hr; cases hr
      | ok r =>
        obtain ⟨xs, c2⟩ := r
        have he2' := he2
        simp only [readEvents] at he2
        rw [he2] at hr
        cases hr
        by_cases hc : p.is_corrupted = true
        · obtain ⟨d3, e⟩ := ih k none c1 c2 (by simpa using hn) (fun _ h => nomatch h) he2'
          refine ⟨d3, ?_⟩
          simp only [playChecked, he, ok_bind, hc, if_true, DecContext.flush, videoDecoder, pure_eq_ok, watch]
          exact e
        · obtain ⟨g1, g2⟩ := video_send hd x hs [] p
          obtain ⟨d2, a1, rfl, _⟩ := drainFrames_run (video_decodes hd x) (decStep v dims s p).1 b (x, (decStep v dims s p).2, (decStep v dims s p).1)
            _ (Nat.lt_of_le_of_lt (decStep_short v dims s p) hb) ⟨rfl, g2⟩
          obtain ⟨d3, e⟩ := ih k _ c1 c2 (by simpa using hn) g2 he2'
          refine ⟨d3, ?_⟩
          simp only [playChecked, he, ok_bind, if_neg hc, DecContext.sendPacket, g1, pure_eq_ok, List.nil_append, a1, e, watch]

/-! ### proofs: what is seen -/

theorem packets_get (dims : List (Nat × Nat)) : ∀ (fs : List Frame) (s : Option Pic) (i : Nat),
    ((encMachine dims).all s fs)[i]? = fs[i]?.map fun f =>
      packetFor (coded ((wanted f).getD .OTHER) (if i = 0 then s else fs[i - 1]?.map (picture dims)) (picture dims f)) f.t
  | [], _, _ => by simp [Machine.all, encMachine]
  | f :: fs, s, 0 => by simp [Machine.all, encMachine]
  | f :: fs, s, i + 1 => by
    have := packets_get dims fs (some (picture dims f)) i
    simp only [Machine.all] at this ⊢
    rw [show ((encMachine dims).step s f).1 = [packetFor (coded ((wanted f).getD .OTHER) s (picture dims f)) f.t] from rfl,
      List.singleton_append, List.getElem?_cons_succ, List.getElem?_cons_succ, show ((encMachine dims).step s f).2 = some (picture dims f) from rfl,
      this, if_neg (Nat.succ_ne_zero i), Nat.add_sub_cancel]
    cases i with
    | zero => rfl
    | succ i => rw [if_neg (Nat.succ_ne_zero i), Nat.add_sub_cancel, List.getElem?_cons_succ]

theorem packets_length (dims : List (Nat × Nat)) : ∀ (fs : List Frame) (s : Option Pic), ((encMachine dims).all s fs).length = fs.length
  | [], _ => rfl
  | f :: fs, s => by
    have := packets_length dims fs (some (picture dims f))
    simp only [Machine.all, List.length_append, List.length_cons]
    rw [show ((encMachine dims).step s f).1.length = 1 from rfl, show ((encMachine dims).step s f).2 = some (picture dims f) from rfl, this]
    omega

theorem seen_step {dims : List (Nat × Nat)} {fs : List Frame} {qs : List Packet} (n : Nat) :
    Seen dims fs qs n ↔ ¬ Lost qs n ∧ (typeAt dims fs n = .I ∨ (0 < n ∧ Seen dims fs qs (n - 1))) := by
  constructor
  · rintro ⟨j, h1, h2, h3⟩
    refine ⟨h3 n h1 (Nat.le_refl _), ?_⟩
    by_cases e : j = n
    · exact .inl (e ▸ h2)
    · exact .inr ⟨by omega, j, by omega, h2, fun k a b => h3 k a (by omega)⟩
  · rintro ⟨h, h1 | ⟨h0, j, h1, h2, h3⟩⟩
    · exact ⟨n, Nat.le_refl _, h1, fun k a b => by rwa [Nat.le_antisymm b a]⟩
    · refine ⟨j, by omega, h2, fun k a b => ?_⟩
      by_cases e : k = n
      · rwa [e]
      · exact h3 k a (by omega)

theorem coded_type {dims : List (Nat × Nat)} {fs : List Frame} {n : Nat} {f : Frame} (hf : fs[n]? = some f) (hw : ∃ ty, wanted f = some ty) :
    (coded ((wanted f).getD .OTHER) (if n = 0 then none else fs[n - 1]?.map (picture dims)) (picture dims f)).1 = typeAt dims fs n := by
  obtain ⟨ty, hw⟩ := hw
  have hlt : n < fs.length := (List.getElem?_eq_some_iff.1 hf).1
  simp only [typeAt, hf, Option.bind_some, Option.map_some, hw, Option.getD_some]
  by_cases hn : n = 0
  · simp [hn, coded]
  · rw [if_neg hn, List.getElem?_eq_getElem (show n - 1 < fs.length by omega), Option.map_some]
    simp only [coded, hn, false_or, Option.some.injEq]
    by_cases h1 : ty = .I
    · simp [h1]
    · by_cases h2 : picture dims f = picture dims fs[n - 1] <;> simp [h1, h2]

theorem watch_presents {v : Frame.VideoInfo} {dims : List (Nat × Nat)} (hd : Plain v dims) {fs : List Frame}
    (hfs : ∀ f ∈ fs, Footage v dims f) {qs : List Packet} (hl : qs.length = fs.length)
    (hq : ∀ (i : Nat) p q, ((encMachine dims).all none fs)[i]? = some p → qs[i]? = some q → q.is_corrupted = true ∨ q.data = p.data) :
    ∀ (m n : Nat) (s : Option Pic), n + m = fs.length →
    (0 < n ∧ Seen dims fs qs (n - 1) ∧ s = fs[n - 1]?.map (picture dims) ∨ ¬ (0 < n ∧ Seen dims fs qs (n - 1)) ∧ s = none) →
    Presents v dims fs qs n (watch v dims s (qs.drop n)) := by
  intro m
  induction m with
  | zero =>
    intro n s hn _
    rw [List.drop_eq_nil_of_le (by omega)]
    exact .done (by omega)
  | succ m ih =>
    intro n s hn hs
    have hlt : n < fs.length := by omega
    obtain ⟨f, hf⟩ : ∃ f, fs[n]? = some f := ⟨_, List.getElem?_eq_getElem hlt⟩
    obtain ⟨q, hqn⟩ : ∃ q, qs[n]? = some q := ⟨_, List.getElem?_eq_getElem (by omega)⟩
    have hfm : Footage v dims f := hfs f (List.mem_of_getElem? hf)
    have hP := tight_picture hfm.2
    have hw : ∃ ty, wanted f = some ty := by
      obtain ⟨ty, hk⟩ := hfm.1
      exact ⟨ty, by simp [wanted, hk, MediaKind.getVideoInfo]⟩
    have hp := packets_get dims fs none n
    rw [hf, Option.map_some] at hp
    have hty := coded_type (dims := dims) hf hw
    rw [show qs.drop n = q :: qs.drop (n + 1) by
      rw [List.drop_eq_getElem_cons (by omega)]; rw [List.getElem?_eq_getElem (by omega)] at hqn; cases hqn; rfl]
    simp only [watch]
    by_cases hc : q.is_corrupted = true
    · rw [if_pos hc]
      have hns : ¬ Seen dims fs qs n := fun h => ((seen_step n).1 h).1 ⟨q, hqn, hc⟩
      exact .skip hlt hns (ih _ _ (by omega) (.inr ⟨fun h => hns h.2, rfl⟩))
    · rw [if_neg hc]
      have hnl : ¬ Lost qs n := by
        rintro ⟨q', h1, h2⟩
        rw [hqn] at h1
        cases h1
        exact hc h2
      have hdata := (hq n _ q hp hqn).resolve_left hc
      have shown : ∀ ty, decoded dims s q.data = some (ty, picture dims f) → ty = typeAt dims fs n → Seen dims fs qs n →
          Presents v dims fs qs n ((decStep v dims s q).1 ++ watch v dims (decStep v dims s q).2 (qs.drop (n + 1))) := by
        intro ty h1 h2 h3
        obtain ⟨g, a1, a2, a3, a4⟩ := paint_ok hd ty q.t hP
        simp only [decStep, h1, a1, Except.toOption, Option.toList, List.singleton_append]
        exact .show h3 hf hqn (by rw [a2, h2]) a3 a4 (ih _ _ (by omega) (.inl ⟨by omega, h3, by simp [hf]⟩))
      by_cases hI : typeAt dims fs n = .I
      · have hS : Seen dims fs qs n := (seen_step n).2 ⟨hnl, .inl hI⟩
        refine shown .I ?_ hI.symm hS
        rw [hdata]
        rw [hI] at hty
        generalize (if n = 0 then none else fs[n - 1]?.map (picture dims)) = e at hty ⊢
        have : (coded ((wanted f).getD .OTHER) e (picture dims f)).2 = 0 :: (picture dims f).flatten := by
          unfold coded at hty ⊢
          cases e with
          | none => rfl
          | some Q =>
            simp only at hty ⊢
            split
            · rfl
            · rename_i h1
              rw [if_neg h1] at hty
              split at hty <;> cases hty
        simp only [packetFor, this]
        exact decoded_key hP s
      · have hn0 : 0 < n := Nat.pos_of_ne_zero fun e => hI (by simp [typeAt, e])
        have hp1 : fs[n - 1]? = some fs[n - 1] := List.getElem?_eq_getElem (by omega)
        rw [if_neg (by omega), hp1, Option.map_some] at hty hdata
        rcases hs with ⟨_, hS, rfl⟩ | ⟨hS, rfl⟩
        · refine shown _ ?_ hty ((seen_step n).2 ⟨hnl, .inr ⟨hn0, hS⟩⟩)
          rw [hdata, hp1, Option.map_some]
          exact decoded_coded hP (tight_picture (hfs _ (List.getElem_mem _)).2) _
        · have hns : ¬ Seen dims fs qs n := fun h => by
            rcases ((seen_step n).1 h).2 with h | h
            · exact hI h
            · exact hS h
          have hnone : decoded dims none q.data = none := by
            rw [hdata]
            exact decoded_blind (by rw [hty]; exact hI)
          simp only [decStep, hnone, List.nil_append]
          exact .skip hlt hns (ih _ _ (by omega) (.inr ⟨fun h => hns h.2, rfl⟩))

theorem Presents.all {v : Frame.VideoInfo} {dims : List (Nat × Nat)} {fs : List Frame} {qs : List Packet}
    (h : ∀ i, i < fs.length → Seen dims fs qs i) {n : Nat} {gs : List Frame} (hp : Presents v dims fs qs n gs) :
    gs.length = fs.length - n ∧ ∀ (i : Nat) g, gs[i]? = some g → ∃ f q, fs[n + i]? = some f ∧ qs[n + i]? = some q ∧
      g.kind = .Video { v with frame_type := typeAt dims fs (n + i) } ∧ g.t = q.t ∧ picture dims g = picture dims f := by
  induction hp with
  | done h1 => exact ⟨by simp; omega, fun i g hg => by simp at hg⟩
  | skip h1 h2 => exact absurd (h _ h1) h2
  | @«show» n g gs f q h1 h2 h3 h4 h5 h6 _ ih =>
    have hlt : n < fs.length := (List.getElem?_eq_some_iff.1 h2).1
    refine ⟨by rw [List.length_cons, ih.1]; omega, fun i g' hg => ?_⟩
    cases i with
    | zero => cases hg; exact ⟨f, q, h2, h3, h4, h5, h6⟩
    | succ i =>
      have := ih.2 i g' hg
      rwa [show n + 1 + i = n + (i + 1) by omega] at this

theorem encoder_run {v : Frame.VideoInfo} {dims : List (Nat × Nat)} (hd : Plain v dims) (x : List U8) (fs : List Frame) :
    ∀ s, (∀ f ∈ fs, Footage v dims f) → ∃ ce',
    EncContext.run (videoEncoder dims x) ⟨s, []⟩ (fs.flatMap fun f => [.send f, .receive]) =
      .ok (((encMachine dims).all s fs).flatMap fun p => [.unit (.ok ()), .packet (.ok p)], ce') := by
  induction fs with
  | nil => intro s _; exact ⟨_, rfl⟩
  | cons f fs ih =>
    intro s h
    obtain ⟨ce', e⟩ := ih (some (picture dims f)) fun g hg => h g (by simp [hg])
    obtain ⟨e1, g1, rfl⟩ := (video_encodes hd x).send (e := (s, [])) (s := s) (q := []) rfl (h f (by simp))
    refine ⟨ce', ?_⟩
    simp only [List.flatMap_cons, List.cons_append, List.nil_append, EncContext.run, EncContext.step, EncContext.sendFrame, g1, ok_bind,
      pure_eq_ok, EncContext.receivePacket, Machine.all]
    simp only [videoEncoder, encMachine, ok_bind, List.cons_append, List.nil_append] at e ⊢
    rw [e]
    rfl

theorem coded_short {dims : List (Nat × Nat)} {P : Pic} (hP : Tight dims P) (req : FrameType) (s : Option Pic) :
    0 < (coded req s P).2.length ∧ (coded req s P).2.length ≤ (dims.map fun d => d.1 * d.2).sum + 1 := by
  have := flatten_length hP
  unfold coded
  cases s with
  | none => simp only [List.length_cons]; omega
  | some Q =>
    simp only
    split
    · simp only [List.length_cons]; omega
    · split
      · simp
      · simp only [List.length_cons, List.length_zipWith]; omega

/-! ### C170 -/

/-- **C170, losses.** Any frames are encoded; the key packets are those of the frames coded by themselves. Some packets then arrive
corrupted. Whatever the decoder has decoded before, and whatever the corrupted packets hold, a player that flushes it there shows a frame
exactly if nothing was lost since the last one coded by itself, with the time of its packet, and the picture it had. -/
theorem c170_losses (v : Frame.VideoInfo) (dims : List (Nat × Nat)) (hd : Plain v dims) (x : List U8) (fs : List Frame)
    (hfs : ∀ f ∈ fs, Footage v dims f) :
    ∃ (ps : List Packet) (ce' : EncContext (Option Pic × List Packet)), EncContext.run (videoEncoder dims x) ⟨none, []⟩ (fs.flatMap fun f => [.send f, .receive]) =
      .ok (ps.flatMap fun p => [.unit (.ok ()), .packet (.ok p)], ce') ∧ ps.length = fs.length ∧
    (∀ (i : Nat) p, ps[i]? = some p → p.is_key = decide (typeAt dims fs i = .I) ∧ p.is_corrupted = false ∧
      fs[i]?.map (·.t) = some p.t ∧ 0 < p.data.length ∧ p.data.length ≤ (dims.map fun d => d.1 * d.2).sum + 1) ∧
    ∀ qs : List Packet, qs.length = fs.length →
      (∀ (i : Nat) p q, ps[i]? = some p → qs[i]? = some q → q.is_corrupted = true ∨ q.data = p.data) →
    ∀ (s : Option Pic) (dm : Demuxer D R) (bf : Buffered R) (fuel k n : Nat) (c c' : Context D R), 1 < k → fs.length < n →
      readEvents dm bf fuel (qs.length + 1) c = .ok (qs.map (fun p => .ok (.NewPacket p)) ++ [.ok .Eof], c') →
    ∃ gs d', playFrom (videoDecoder v dims x) dm bf fuel k n ⟨x, s, []⟩ c = .ok (.ok gs, d', c') ∧ Presents v dims fs qs 0 gs := by
  obtain ⟨ce', he⟩ := encoder_run hd x fs none hfs
  refine ⟨_, ce', he, packets_length dims fs none, ?_, ?_⟩
  · intro i p hp
    rw [packets_get] at hp
    cases hf : fs[i]? with
    | none => rw [hf] at hp; cases hp
    | some f =>
      have hfm : Footage v dims f := hfs f (List.mem_of_getElem? hf)
      rw [hf, Option.map_some] at hp
      cases hp
      have hw : ∃ ty, wanted f = some ty := by
        obtain ⟨ty, hk⟩ := hfm.1
        exact ⟨ty, by simp [wanted, hk, MediaKind.getVideoInfo]⟩
      exact ⟨by rw [← coded_type hf hw]; rfl, rfl, rfl, coded_short (tight_picture hfm.2) _ _⟩
  · intro qs hl hq s dm bf fuel k n c c' hk hn hr
    obtain ⟨d', a⟩ := playChecked_run hd x hk qs n none c c' (by omega) (fun _ h => nomatch h) hr
    refine ⟨_, d', ?_, watch_presents hd hfs hl hq fs.length 0 none (by omega) (.inr ⟨by omega, rfl⟩)⟩
    simp only [playFrom, DecContext.flush, videoDecoder, ok_bind, pure_eq_ok]
    exact a

/-- **C170, files.** Frames encoded, muxed, demuxed and decoded as in C160: all are shown, with the pictures they had. -/
theorem c170_file (v : Frame.VideoInfo) (dims : List (Nat × Nat)) (hd : Plain v dims) (x : List U8)
    (eds : List (Codec.Descriptor (Option Pic × List Packet))) (dds : List (Codec.Descriptor (List U8 × Option Pic × List Frame)))
    (ename dname : String) (ei di : Nat) (edesc ddesc : Codec.Descr)
    (hed : eds[ei]? = some ⟨(none, []), edesc⟩ ∧ edesc.codec = ename ∧ ∀ j e, j < ei → eds[j]? = some e → e.describe.codec ≠ ename)
    (hdd : dds[di]? = some ⟨([], none, []), ddesc⟩ ∧ ddesc.codec = dname ∧ ∀ j e, j < di → dds[j]? = some e → e.describe.codec ≠ dname)
    (F : Format D) (hF : F.Framed) (hdr : M → List U8 × M) (pkt : M → Packet → List U8 × M)
    (trl : M → List U8 × M) (wire : Packet → Packet) (info : GlobalInfo) (m : M) (d : D) (good : Packet → Prop)
    (sync : M → D → Prop) (h : Undoes F hdr pkt trl wire info m d good sync)
    (hw : ∀ p, (wire p).data = p.data ∧ (p.is_corrupted = false → (wire p).is_corrupted = false))
    (hx : ∃ st, info.streams[0]? = some st ∧ st.params.extradata = some x)
    (hgood : ∀ p : Packet, 0 < p.data.length → p.data.length ≤ (dims.map fun d => d.1 * d.2).sum + 1 → good p)
    (fs : List Frame) (hfs : ∀ f ∈ fs, Footage v dims f)
    (sink : Sink) (h0 : sink.data = [] ∧ sink.pos = 0)
    (hq : ∀ c, (sink.script c).fail = none ∧ 0 < (sink.script c).len)
    (acts : Nat → Act) (ha : ∀ c, (acts c).fail = none) (cap : Nat) :
    ∃ gs : List Frame, (gs.length = fs.length ∧ ∀ (i : Nat) g, gs[i]? = some g → ∃ f, fs[i]? = some f ∧
      g.kind = .Video { v with frame_type := typeAt dims fs i } ∧ picture dims g = picture dims f) ∧
    ∃ ce cd, EncContext.byName (Codecs.fromList eds) ename = .ok (some ce) ∧
      DecContext.byName (Codecs.fromList dds) dname = .ok (some cd) ∧ ce.getExtradata (videoEncoder dims x) = .ok (some x) ∧
    ∀ n fuel, fs.length < n → (Mux.fileBytes hdr pkt trl m ((encMachine dims).all none fs)).length < fuel →
    ∃ ce' c, encodeFile (videoEncoder dims x) Mux.sinkOps (Mux.bytesMuxer fuel hdr pkt trl) n fs ce
        (Mux.Context.new m (Mux.Writer.new sink)) = .ok (.ok (), ce', c) ∧
    ∀ file, c.intoWriter.writer.data = file → ∀ k, fs.length < k →
    ∃ c1 c2 st y cd1 cd2 cd3,
      readHeaders F.demuxer accBuffered (file.length + 2)
        (Context.new d (Acc.withCapacity cap ⟨file, 0, acts, 0⟩)) = .ok (.ok (), c1) ∧
      c1.info.streams[0]? = some st ∧ st.params.extradata = some y ∧
      cd.setExtradata (videoDecoder v dims x) y = .ok cd1 ∧ cd1.configure (videoDecoder v dims x) = .ok (.ok (), cd2) ∧
      decodeAll (videoDecoder v dims x) F.demuxer accBuffered (file.length + 1) k n cd2 c1 = .ok (.ok gs, cd3, c2) := by
  have hpk : ∀ p ∈ (encMachine dims).all none fs, p.is_corrupted = false := by
    intro p hp
    obtain ⟨i, hi⟩ := List.getElem?_of_mem hp
    rw [packets_get] at hi
    cases hf : fs[i]? with
    | none => rw [hf] at hi; cases hi
    | some f => rw [hf] at hi; cases hi; rfl
  have hfine : ∀ q ∈ ((encMachine dims).all none fs).map (kept info.streams wire), q.is_corrupted = false := by
    intro q hq
    obtain ⟨p, hp, rfl⟩ := List.mem_map.1 hq
    exact (hw p).2 (hpk p hp)
  have hpres := watch_presents hd hfs (qs := ((encMachine dims).all none fs).map (kept info.streams wire))
    (by rw [List.length_map, packets_length]) (by
      intro i p q h1 h2
      rw [List.getElem?_map, h1] at h2
      cases h2
      exact .inr (hw p).1) fs.length 0 none (by omega) (.inr ⟨by omega, rfl⟩)
  have hall := Presents.all (by
    intro i hi
    exact ⟨0, by omega, by simp [typeAt], fun k _ _ ⟨q, h1, h2⟩ => by rw [hfine q (List.mem_of_getElem? h1)] at h2; cases h2⟩) hpres
  refine ⟨_, ⟨by simpa using hall.1, fun i g hg => ?_⟩, ?_⟩
  · obtain ⟨f, q, a1, _, a2, _, a3⟩ := hall.2 i g hg
    rw [Nat.zero_add] at a1 a2
    exact ⟨f, a1, a2, a3⟩
  · have := delayed_run (videoEncoder dims x) (videoDecoder v dims x) eds dds ename dname ei di _ _ hed hdd F hF hdr pkt trl wire info m d
      good sync h (encMachine dims) (decMachine v dims) (Footage v dims) _ _ none none (video_encodes hd x) (video_decodes hd x) x
      ⟨rfl, rfl⟩ ⟨(x, none, []), (x, none, []), rfl, by simp [videoDecoder], rfl, fun _ h => nomatch h⟩ hx fs hfs (by
        intro p hp
        obtain ⟨i, hi⟩ := List.getElem?_of_mem hp
        rw [packets_get] at hi
        cases hf : fs[i]? with
        | none => rw [hf] at hi; cases hi
        | some f =>
          rw [hf] at hi
          cases hi
          have := coded_short (tight_picture (hfs f (List.mem_of_getElem? hf)).2) ((wanted f).getD .OTHER)
            (if i = 0 then none else fs[i - 1]?.map (picture dims))
          exact hgood _ this.1 this.2) _
      (all_watch none _ hfine) sink h0 hq acts ha cap
    simpa only [packets_length, List.drop_zero, (by simpa using hall.1 : (watch v dims none (((encMachine dims).all none fs).map
      (kept info.streams wire))).length = fs.length)] using this

/-- **C170, formats.** Formats without holes whose components have eight bits or more are such formats. -/
theorem c170_formats (v : Frame.VideoInfo) (s : Nat) (hs : v.size 32 = .ok s) (cs : List Pixel.Chromaton)
    (hf : v.format.comp_info = cs.map some ++ List.replicate (5 - cs.length) none)
    (hc : ∀ c ∈ cs, 8 ≤ c.depth ∧ Pixel.Fits c v.width 5) (hw : 0 < v.width) : ∃ dims, Plain v dims := by
  have hlen : ∀ {bufs : List (List U8)} {ls : List Nat} {dims : List (Nat × Nat)}, AllRoomy bufs ls dims → bufs.length = dims.length := by
    intro bufs
    induction bufs with
    | nil => intro ls dims h; cases ls <;> cases dims <;> first | rfl | exact h.elim
    | cons b bufs ih =>
      intro ls dims h
      cases ls <;> cases dims <;> first | exact h.elim | skip
      simp [ih h.2]
  have huniq : ∀ {cs : List (Option Pixel.Chromaton)} {a b : List (Nat × Nat)}, a.length = b.length → DimsOf v.width v.height cs a →
      DimsOf v.width v.height cs b → a = b := by
    intro cs
    induction cs with
    | nil => intro a b _ ha hb; cases a <;> cases b <;> first | rfl | exact ha.elim | exact hb.elim
    | cons c cs ih =>
      intro a b hab ha hb
      cases a <;> cases b <;> first | rfl | (cases hab) | skip
      cases c with
      | none => exact ha.elim
      | some c =>
        obtain ⟨a1, a2, a3⟩ := ha
        obtain ⟨b1, b2, b3⟩ := hb
        rw [a1] at b1
        rw [a2] at b2
        simp only [Except.ok.injEq] at b1 b2
        rw [ih (by simpa using hab) a3 b3, Prod.ext b1 b2]
  have hpos : ∀ (l : List (Option Pixel.Chromaton)) (dims : List (Nat × Nat)), (∀ c, some c ∈ l → c ∈ cs) → DimsOf v.width v.height l dims →
      ∀ d ∈ dims, 0 < d.1 := by
    intro l
    induction l with
    | nil => intro dims _ h; cases dims <;> first | exact h.elim | (intro d hd; cases hd)
    | cons c l ih =>
      intro dims hm h
      cases dims with
      | nil => intro d hd; cases hd
      | cons e dims =>
        cases c with
        | none => exact h.elim
        | some c =>
          obtain ⟨h1, h2, h3⟩ := h
          intro d hd
          rcases List.mem_cons.1 hd with rfl | hd
          · have hfit := (hc c (hm c (by simp))).2
            have := Pixel.subsampled_eq hfit.width hfit.ss
            unfold Pixel.Chromaton.getWidth at h1
            rw [h1] at this
            simp only [Except.ok.injEq] at this
            rw [this]
            exact Nat.div_pos (by omega) (Nat.two_pow_pos _)
          · exact ih dims (fun c hc => hm c (by simp [hc])) h3 d hd
  have hcount : ∀ ty t f, newDefaultFrame (.Video { v with frame_type := ty }) t = .ok f → f.t = t.getD .default ∧ f.planes.length = (comps v.format).length := by
    intro ty t f h
    obtain ⟨f', a1, _, a3, a4, _⟩ := c47_video { v with frame_type := ty } t s hs
    rw [h] at a1
    cases a1
    exact ⟨a3, a4⟩
  obtain ⟨f0, dims, a1, a2, a3, a4⟩ := c49_default { v with frame_type := .I } none s hs cs hf hc hw
  have hl0 := hlen a4
  rw [List.length_map, (hcount _ _ _ a1).2] at hl0
  refine ⟨dims, a3, hpos _ dims ?_ a3, fun ty t => ?_⟩
  · intro c hcm
    rw [hf] at hcm
    rcases List.mem_append.1 hcm with h | h
    · obtain ⟨c', h1, h2⟩ := List.mem_map.1 h
      cases h2
      exact h1
    · exact nomatch (List.mem_replicate.1 h).2
  · obtain ⟨f, dims', b1, b2, b3, b4⟩ := c49_default { v with frame_type := ty } (some t) s hs cs hf hc hw
    have hl := hlen b4
    rw [List.length_map, (hcount _ _ _ b1).2] at hl
    have e := huniq (hl0.symm.trans hl) a3 b3
    exact ⟨f, b1, (hcount _ _ _ b1).1, b2, by rw [e]; exact b4⟩

/-! ### example: five small pictures -/

/-- Two by two pixels in 4:2:0. -/
def tinyVideo : Frame.VideoInfo := ⟨2, 2, false, .OTHER, Pixel.formats.YUV420, 24⟩

def tinyDims : List (Nat × Nat) := [(2, 2), (1, 1), (1, 1)]

example : ∃ dims, Plain tinyVideo dims :=
  c170_formats tinyVideo 128 (by decide +kernel) [.new 0 0 false 8 0 0 1, .yuv8 1 1 1, .yuv8 1 1 2] (by decide) (by
    have h : ∀ c ∈ [Pixel.Chromaton.new 0 0 false 8 0 0 1, .yuv8 1 1 1, .yuv8 1 1 2], c.depth = 8 ∧ c.h_ss ≤ 1 := by decide
    intro c hc
    obtain ⟨h1, h2⟩ := h c hc
    have h3 : 2 ^ c.h_ss ≤ 2 := Nat.pow_le_pow_right (n := 2) (j := 1) (by omega) h2
    refine ⟨by omega, by omega, by rw [show tinyVideo.width = 2 from rfl]; omega, by omega, ?_⟩
    have h4 : (2 + (2 ^ c.h_ss - 1)) / 2 ^ c.h_ss ≤ 3 := Nat.le_trans (Nat.div_le_self _ _) (by omega)
    rw [h1, show tinyVideo.width = 2 from rfl]
    omega) (by decide)

/-- A frame of tightly packed planes. -/
def tinyFrame (ty : FrameType) (t : Int) (P : Pic) : Frame :=
  ⟨.Video { tinyVideo with frame_type := ty }, List.zipWith (fun b d => ⟨b, d.1⟩) P tinyDims, { TimeInfo.default with pts := some t }⟩

/-- The third asks to be coded by itself; the last shows what the fourth does. -/
def tinyFilm : List Frame :=
  [tinyFrame .OTHER 0 [[1, 2, 3, 4], [5], [6]], tinyFrame .OTHER 1 [[1, 2, 3, 9], [5], [7]], tinyFrame .I 2 [[8, 8, 8, 8], [0], [0]],
    tinyFrame .OTHER 3 [[8, 8, 8, 7], [0], [1]], tinyFrame .OTHER 4 [[8, 8, 8, 7], [0], [1]]]

example : ∀ f ∈ tinyFilm, Footage tinyVideo tinyDims f := by
  have h : ∀ ty t a b c, a.length = 4 → b.length = 1 → c.length = 1 → Footage tinyVideo tinyDims (tinyFrame ty t [a, b, c]) := by
    intro ty t a b c ha hb hc
    exact ⟨⟨ty, rfl⟩, roomy_of_length (Nat.zero_lt_succ 1) ha, roomy_of_length (Nat.zero_lt_succ 0) hb, roomy_of_length (Nat.zero_lt_succ 0) hc, trivial⟩
  intro f hf
  simp only [tinyFilm, List.mem_cons, List.not_mem_nil, or_false] at hf
  rcases hf with rfl | rfl | rfl | rfl | rfl <;> exact h _ _ _ _ _ rfl rfl rfl

/-- How they are coded. -/
example : ((encMachine tinyDims).all none tinyFilm).map (fun p => (p.is_key, p.data)) =
    [(true, [0, 1, 2, 3, 4, 5, 6]), (false, [1, 0, 0, 0, 5, 0, 1]), (true, [0, 8, 8, 8, 8, 0, 0]), (false, [1, 0, 0, 0, 255, 0, 1]),
      (false, [2])] := by decide +kernel

/-- A demuxer that gives the packets it has. -/
def giving : Demuxer (List Packet) Acc.Acc where
  readHeaders d r i := .ok (.ok (.current 0), d, r, i)
  readEvent d r := .ok (match d with
    | [] => (.ok (.current 0, .Eof), [], r)
    | p :: ps => (.ok (.current 0, .NewPacket p), ps, r))

/-- The packets with those at these places corrupted. -/
def spoilt (bad : List Nat) (ps : List Packet) : List Packet :=
  ps.zipIdx.map fun (p, i) => if i ∈ bad then { p with data := [0xee], is_corrupted := true } else p

/-- The types, times and first planes of what is shown. -/
def screen (bad : List Nat) : List (FrameType × Int × List U8) :=
  match playFrom (videoDecoder tinyVideo tinyDims [9]) giving accBuffered 9 2 9 ⟨[9], some [[1, 1, 1, 1], [1], [1]], []⟩
      (Context.new (spoilt bad ((encMachine tinyDims).all none tinyFilm)) (Acc.withCapacity 1 ⟨[], 0, fun _ => ⟨none, 1⟩, 0⟩)) with
  | .ok (.ok gs, _, _) => gs.map fun g => ((wanted g).getD .OTHER, g.t.pts.getD 99, (picture tinyDims g).headD [])
  | _ => []

/-- Without losses all five; without the second the others; without the first all from the next key packet on. -/
example : [screen [], screen [1], screen [0], screen [0, 3]] = [
    [(.I, 0, [1, 2, 3, 4]), (.P, 1, [1, 2, 3, 9]), (.I, 2, [8, 8, 8, 8]),
      (.P, 3, [8, 8, 8, 7]), (.SKIP, 4, [8, 8, 8, 7])],
    [(.I, 0, [1, 2, 3, 4]), (.I, 2, [8, 8, 8, 8]),
      (.P, 3, [8, 8, 8, 7]), (.SKIP, 4, [8, 8, 8, 7])],
    [(.I, 2, [8, 8, 8, 8]), (.P, 3, [8, 8, 8, 7]), (.SKIP, 4, [8, 8, 8, 7])],
    [(.I, 2, [8, 8, 8, 8])]] := by decide +kernel

end Verif.RoundTrip
