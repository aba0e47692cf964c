import Verif.RoundTrip.Delayed

/-!
# Property C163: files of several streams

C106 and C160 are about files of one stream. Here an application encodes the frames of several streams, in any
interleaving, each with its encoder, and another one demuxes the file and plays it, choosing for each stream the decoder
by the stream's codec id.
-/

namespace Verif.RoundTrip
open Verif Verif.Io Verif.Frame Verif.Stream Verif.Packet Verif.Demux Verif.Codec

variable {M W D R E C S T A B : Type}

/-! ### the applications -/

/-- `p.stream_index = i` -/
def tag (i : Nat) (p : Packet) : Packet := { p with stream_index := i }

/-- The application sets the stream index of the packets it receives. -/
def tagged (i : Nat) (ec : Encoder E) : Encoder E := { ec with
  receivePacket := fun e => do
    match ← ec.receivePacket e with
    | (.ok p, e) => return (.ok (tag i p), e)
    | (.error x, e) => return (.error x, e) }

/-- The encoders of the streams, by name. -/
def openEncoders (reg : Codecs E) : List String → Rust (Except AppErr (List (EncContext E)))
  | [] => .ok (.ok [])
  | name :: names => do
    match ← EncContext.byName reg name with
    | none => return .error (.codec (.Unsupported name))
    | some ce =>
      match ← openEncoders reg names with
      | .ok ces => return .ok (ce :: ces)
      | .error e => return .error e

/-- At the end every encoder is flushed and what it gives written. -/
def flushEncoders (ec : Encoder E) (mx : Mux.Muxer M W) (fuel : Nat) : Nat → List (EncContext E) → Mux.Context M W →
    Rust (Except AppErr Unit × List (EncContext E) × Mux.Context M W)
  | _, [], cm => .ok (.ok (), [], cm)
  | i, ce :: ces, cm => do
    match ← ce.flush ec with
    | (.error e, ce) => .ok (.error (.codec e), ce :: ces, cm)
    | (.ok (), ce) =>
      match ← drainPackets (tagged i ec) mx fuel ce cm with
      | (.error e, ce, cm) => .ok (.error e, ce :: ces, cm)
      | (.ok (), ce, cm) =>
        match ← flushEncoders ec mx fuel (i + 1) ces cm with
        | (x, ces, cm) => .ok (x, ce :: ces, cm)

/-- Each frame is sent to the encoder of its stream and what that gives is written; then the rest, and the trailer. -/
def encodeStreams (ec : Encoder E) (so : Mux.SinkOps W) (mx : Mux.Muxer M W) (fuel : Nat) : List (Nat × Frame) →
    List (EncContext E) → Mux.Context M W → Rust (Except AppErr Unit × List (EncContext E) × Mux.Context M W)
  | [], ces, cm => do
    match ← flushEncoders ec mx fuel 0 ces cm with
    | (.error e, r) => .ok (.error e, r)
    | (.ok (), ces, cm) =>
      match ← cm.writeTrailer so mx with
      | (.error e, cm) => .ok (.error (.format e), ces, cm)
      | (.ok (), cm) => .ok (.ok (), ces, cm)
  | (i, f) :: fs, ces, cm => do
    match ces[i]? with
    | none => .error .index
    | some ce =>
      match ← ce.sendFrame ec f with
      | (.error e, ce) => .ok (.error (.codec e), ces.set i ce, cm)
      | (.ok (), ce) =>
        match ← drainPackets (tagged i ec) mx fuel ce cm with
        | (.error e, ce, cm) => .ok (.error e, ces.set i ce, cm)
        | (.ok (), ce, cm) => encodeStreams ec so mx fuel fs (ces.set i ce) cm

/-- The header first. -/
def encodeStreamsFile (ec : Encoder E) (so : Mux.SinkOps W) (mx : Mux.Muxer M W) (fuel : Nat) (fs : List (Nat × Frame))
    (ces : List (EncContext E)) (cm : Mux.Context M W) :
    Rust (Except AppErr Unit × List (EncContext E) × Mux.Context M W) := do
  match ← cm.writeHeader mx with
  | (.error e, cm) => .ok (.error (.format e), ces, cm)
  | (.ok (), cm) => encodeStreams ec so mx fuel fs ces cm

/-- For each stream the decoder of its codec id, set up with its extradata and configured. -/
def openDecoders (dc : Decoder C) (reg : Codecs C) : List Stream → Rust (Except AppErr (List (DecContext C)))
  | [] => .ok (.ok [])
  | st :: sts => do
    match ← DecContext.byName reg (st.params.codec_id.getD "") with
    | none => return .error (.codec (.Unsupported (st.params.codec_id.getD "")))
    | some cd =>
      let cd ← match st.params.extradata with
        | some x => cd.setExtradata dc x
        | none => .ok cd
      match ← cd.configure dc with
      | (.error e, _) => return .error (.codec e)
      | (.ok (), cd) =>
        match ← openDecoders dc reg sts with
        | .ok cds => return .ok (cd :: cds)
        | .error e => return .error e

/-- At the end every decoder is flushed and its frames kept. -/
def flushDecoders (dc : Decoder C) (k : Nat) : Nat → List (DecContext C) →
    Rust (Except AppErr (List (Nat × Frame)) × List (DecContext C))
  | _, [] => .ok (.ok [], [])
  | i, cd :: cds => do
    match ← cd.flush dc with
    | (.error e, cd) => .ok (.error (.codec e), cd :: cds)
    | (.ok (), cd) =>
      match ← drainFrames dc k cd with
      | (.error e, cd) => .ok (.error e, cd :: cds)
      | (.ok fs, cd) =>
        match ← flushDecoders dc k (i + 1) cds with
        | (.ok gs, cds) => .ok (.ok (fs.map (fun f => (i, f)) ++ gs), cd :: cds)
        | (.error e, cds) => .ok (.error e, cd :: cds)

/-- Each packet is sent to the decoder of its stream and the frames that gives are kept with the stream's number, until
`Eof`; then the rest. Packets of other streams and other events are passed over. -/
def playAll (dc : Decoder C) (dm : Demuxer D R) (bf : Buffered R) (fuel k : Nat) : Nat → List (DecContext C) →
    Context D R → Rust (Except AppErr (List (Nat × Frame)) × List (DecContext C) × Context D R)
  | 0, _, _ => .error .fuel
  | n + 1, cds, c => do
    match ← readEvent dm bf fuel c with
    | (.error e, c) => .ok (.error (.format e), cds, c)
    | (.ok (.NewPacket p), c) =>
      match if p.stream_index < 0 then none else cds[p.stream_index.toNat]? with
      | none => playAll dc dm bf fuel k n cds c
      | some cd =>
        match ← cd.sendPacket dc p with
        | (.error e, cd) => .ok (.error (.codec e), cds.set p.stream_index.toNat cd, c)
        | (.ok (), cd) =>
          match ← drainFrames dc k cd with
          | (.error e, cd) => .ok (.error e, cds.set p.stream_index.toNat cd, c)
          | (.ok fs, cd) =>
            match ← playAll dc dm bf fuel k n (cds.set p.stream_index.toNat cd) c with
            | (.ok gs, r) => .ok (.ok (fs.map (fun f => (p.stream_index.toNat, f)) ++ gs), r)
            | (.error e, r) => .ok (.error e, r)
    | (.ok .Eof, c) =>
      match ← flushDecoders dc k 0 cds with
      | (x, cds) => .ok (x, cds, c)
    | (.ok _, c) => playAll dc dm bf fuel k n cds c

/-! ### specification -/

/-- What belongs to one stream. -/
def only (i : Nat) (l : List (Nat × A)) : List A := l.filterMap fun y => if y.1 = i then some y.2 else none

def upd (s : Nat → S) (i : Nat) (x : S) : Nat → S := fun j => if j = i then x else s j

/-- What the streams `i, …, i + n - 1` give at the end. -/
def finishFrom (ms : Nat → Machine S A B) (s : Nat → S) : Nat → Nat → List (Nat × B)
  | _, 0 => []
  | i, n + 1 => ((ms i).finish (s i)).map (fun b => (i, b)) ++ finishFrom ms s (i + 1) n

/-- `n` machines side by side. -/
def interleave (n : Nat) (ms : Nat → Machine S A B) : Machine (Nat → S) (Nat × A) (Nat × B) where
  step s y := ((((ms y.1).step (s y.1) y.2).1).map fun b => (y.1, b), upd s y.1 ((ms y.1).step (s y.1) y.2).2)
  finish s := finishFrom ms s 0 n

/-! ### proofs -/

theorem only_append (i : Nat) (l l' : List (Nat × A)) : only i (l ++ l') = only i l ++ only i l' := by
  simp [only]

theorem only_same (i : Nat) (l : List A) : only i (l.map fun b => (i, b)) = l := by
  induction l with
  | nil => rfl
  | cons a l ih =>
    unfold only at ih ⊢
    simpa using ih

theorem only_other {i j : Nat} (h : j ≠ i) (l : List A) : only i (l.map fun b => (j, b)) = [] := by
  induction l with
  | nil => rfl
  | cons a l ih =>
    unfold only at ih ⊢
    simp [h]

theorem only_finish (ms : Nat → Machine S A B) (s : Nat → S) (n : Nat) : ∀ i j,
    only j (finishFrom ms s i n) = if i ≤ j ∧ j < i + n then (ms j).finish (s j) else [] := by
  induction n with
  | zero =>
    intro i j
    rw [if_neg (by omega)]
    rfl
  | succ n ih =>
    intro i j
    rw [finishFrom, only_append, ih (i + 1) j]
    by_cases h : i = j
    · subst h
      rw [only_same, if_neg (by omega), if_pos (by omega), List.append_nil]
    · rw [only_other h, List.nil_append]
      by_cases h' : i + 1 ≤ j ∧ j < i + 1 + n
      · rw [if_pos h', if_pos (by omega)]
      · rw [if_neg h', if_neg (by omega)]

/-- Each machine sees its own inputs only. -/
theorem only_all {n : Nat} (ms : Nat → Machine S A B) {i : Nat} (hi : i < n) (l : List (Nat × A)) : ∀ s : Nat → S,
    only i ((interleave n ms).all s l) = (ms i).all (s i) (only i l) := by
  induction l with
  | nil =>
    intro s
    show only i (finishFrom ms s 0 n) = (ms i).finish (s i)
    rw [only_finish, if_pos (by omega)]
  | cons y l ih =>
    intro s
    obtain ⟨j, a⟩ := y
    rw [Machine.all, only_append, ih]
    simp only [interleave, upd]
    by_cases h : j = i
    · subst h
      rw [only_same, if_pos rfl, show only j ((j, a) :: l) = a :: only j l by simp [only], Machine.all]
    · rw [only_other h, List.nil_append, if_neg (by omega), show only i ((j, a) :: l) = only i l by simp [only, h]]

theorem only_map (i : Nat) (g : Nat → A → B) (l : List (Nat × A)) :
    only i (l.map fun y => (y.1, g y.1 y.2)) = (only i l).map (g i) := by
  induction l with
  | nil => rfl
  | cons y l ih =>
    obtain ⟨j, a⟩ := y
    unfold only at ih ⊢
    by_cases h : j = i
    · subst h; simpa using ih
    · simpa [h] using ih

theorem keys_finish (ms : Nat → Machine S A B) (s : Nat → S) (n : Nat) : ∀ i, ∀ y ∈ finishFrom ms s i n, y.1 < i + n := by
  induction n with
  | zero => intro i y hy; cases hy
  | succ n ih =>
    intro i y hy
    rw [finishFrom, List.mem_append] at hy
    rcases hy with hy | hy
    · obtain ⟨b, _, rfl⟩ := List.mem_map.1 hy
      simp only
      omega
    · have := ih (i + 1) y hy
      omega

theorem keys_all {n : Nat} (ms : Nat → Machine S A B) (l : List (Nat × A)) (h : ∀ y ∈ l, y.1 < n) : ∀ s : Nat → S,
    ∀ y ∈ (interleave n ms).all s l, y.1 < n := by
  induction l with
  | nil =>
    intro s y hy
    have := keys_finish ms s n 0 y hy
    omega
  | cons z l ih =>
    intro s y hy
    rw [Machine.all, List.mem_append] at hy
    rcases hy with hy | hy
    · obtain ⟨b, _, rfl⟩ := List.mem_map.1 hy
      exact h z (by simp)
    · exact ih (fun y hy => h y (by simp [hy])) _ y hy

theorem only_length (i : Nat) (l : List (Nat × A)) : (only i l).length ≤ l.length := List.length_filterMap_le ..

/-- The encoder with its stream index. -/
theorem tagged_encodes {ec : Encoder E} {m : Machine S Frame Packet} {fine : Frame → Prop}
    {I : E → S → List Packet → Prop} (h : Encodes ec m fine I) (i : Nat) :
    Encodes (tagged i ec) ⟨fun s f => ((m.step s f).1.map (tag i), (m.step s f).2), fun s => (m.finish s).map (tag i)⟩ fine
      fun e s q => ∃ q', q = q'.map (tag i) ∧ I e s q' where
  send := by
    rintro e s q f ⟨q', rfl, hI⟩ hf
    obtain ⟨e', g, hI'⟩ := h.send hI hf
    exact ⟨e', g, _, by simp, hI'⟩
  receive := by
    rintro e s p q ⟨q', hq, hI⟩
    cases q' with
    | nil => cases hq
    | cons p' q' =>
      rw [List.map_cons] at hq
      cases hq
      obtain ⟨e', g, hI'⟩ := h.receive hI
      exact ⟨e', by simp only [tagged, g, ok_bind, pure_eq_ok], q', rfl, hI'⟩
  empty := by
    rintro e s ⟨q', hq, hI⟩
    cases q' with
    | cons p' q' => cases hq
    | nil =>
      obtain ⟨e', g, hI'⟩ := h.empty hI
      exact ⟨e', by simp only [tagged, g, ok_bind, pure_eq_ok], [], rfl, hI'⟩
  flush := by
    rintro e s q ⟨q', rfl, hI⟩
    obtain ⟨e', s', g, hI'⟩ := h.flush hI
    exact ⟨e', s', g, _, by simp, hI'⟩

theorem flushEncoders_run {N : Nat} {ec : Encoder E} {em : Nat → Machine S Frame Packet} {fine : Nat → Frame → Prop}
    {I : Nat → E → S → List Packet → Prop} (hE : ∀ i < N, Encodes ec (em i) (fine i) (I i)) {so : Mux.SinkOps W}
    {mx : Mux.Muxer M W} {n : Nat} {s : Nat → S} (ces : List (EncContext E)) : ∀ (i : Nat) (cm : Mux.Context M W) ops xs c,
    i + ces.length ≤ N → (finishFrom em s i ces.length).length < n →
    (∀ j, j < ces.length → ∃ e, ces[j]? = some ⟨e⟩ ∧ I (i + j) e (s (i + j)) []) →
    cm.run so mx ((finishFrom em s i ces.length).map (fun y => .packet (tag y.1 y.2)) ++ ops) =
      .ok (List.replicate (finishFrom em s i ces.length).length (.ok ()) ++ xs, c) →
    ∃ ces' cm', flushEncoders ec mx n i ces cm = .ok (.ok (), ces', cm') ∧ cm'.run so mx ops = .ok (xs, c) := by
  induction ces with
  | nil => exact fun i cm ops xs c _ _ _ hr => ⟨[], cm, rfl, hr⟩
  | cons ce ces ih =>
    intro i cm ops xs c hi hn hI hr
    obtain ⟨e, h0, hI0⟩ := hI 0 (by simp)
    simp only [List.getElem?_cons_zero, Option.some.injEq] at h0
    subst h0
    rw [List.length_cons] at hi
    have ht := tagged_encodes (hE i (by omega)) i
    obtain ⟨e1, s1, g, hI1⟩ := (hE i (by omega)).flush hI0
    rw [Nat.add_zero] at hI0
    simp only [List.length_cons, finishFrom, List.length_append, List.length_map, List.map_append, List.map_map,
      List.append_assoc] at hn hr
    rw [← List.replicate_append_replicate, List.append_assoc] at hr
    obtain ⟨e2, cm2, a1, _, a3⟩ := drainPackets_run ht (((em i).finish (s i)).map (tag i)) n e1 s1 cm
      ((finishFrom em s (i + 1) ces.length).map (fun y => .packet (tag y.1 y.2)) ++ ops)
      (List.replicate (finishFrom em s (i + 1) ces.length).length (.ok ()) ++ xs) c
      (by rw [List.length_map]; omega) ⟨_, rfl, by simpa using hI1⟩
      (by rw [List.length_map, List.map_map]; exact hr)
    obtain ⟨ces', cm', b1, b2⟩ := ih (i + 1) cm2 ops xs c (by omega) (by omega) (fun j hj => by
      obtain ⟨e, x1, x2⟩ := hI (j + 1) (by simpa using hj)
      exact ⟨e, by simpa using x1, by rwa [show i + 1 + j = i + (j + 1) by omega]⟩) a3
    refine ⟨⟨e2⟩ :: ces', cm', ?_, b2⟩
    simp only [flushEncoders, EncContext.flush, g, ok_bind, pure_eq_ok, a1, b1]

theorem encodeStreams_run {N : Nat} {ec : Encoder E} {em : Nat → Machine S Frame Packet} {fine : Nat → Frame → Prop}
    {I : Nat → E → S → List Packet → Prop} (hE : ∀ i < N, Encodes ec (em i) (fine i) (I i)) {so : Mux.SinkOps W}
    {mx : Mux.Muxer M W} {n : Nat} (fs : List (Nat × Frame)) : ∀ (ces : List (EncContext E)) (s : Nat → S)
    (cm : Mux.Context M W) c, ((interleave N em).all s fs).length < n → ces.length = N →
    (∀ j, j < N → ∃ e, ces[j]? = some ⟨e⟩ ∧ I j e (s j) []) → (∀ y ∈ fs, y.1 < N ∧ fine y.1 y.2) →
    cm.run so mx (((interleave N em).all s fs).map (fun y => .packet (tag y.1 y.2)) ++ [.trailer]) =
      .ok (List.replicate (((interleave N em).all s fs).length + 1) (.ok ()), c) →
    ∃ ces', encodeStreams ec so mx n fs ces cm = .ok (.ok (), ces', c) := by
  induction fs with
  | nil =>
    intro ces s cm c hn hl hI _ hr
    subst hl
    obtain ⟨ces', cm2, a1, a3⟩ := flushEncoders_run hE (so := so) (mx := mx) (n := n) (s := s) ces 0 cm [.trailer] [.ok ()] c (by omega)
      hn (fun j hj => by simpa using hI j hj) (by rw [← List.replicate_succ']; exact hr)
    simp only [Mux.Context.run, Mux.Context.step] at a3
    cases ht : cm2.writeTrailer so mx with
    | error er => rw [ht] at a3; cases a3
    | ok r =>
      obtain ⟨x, cm3⟩ := r
      rw [ht] at a3
      cases a3
      refine ⟨ces', ?_⟩
      simp only [encodeStreams, ok_bind, a1, ht]
  | cons y fs ih =>
    intro ces s cm c hn hl hI hf hr
    obtain ⟨i, f⟩ := y
    obtain ⟨hi, hfi⟩ := hf (i, f) (by simp)
    obtain ⟨e, h0, hI0⟩ := hI i hi
    have ht := tagged_encodes (hE i hi) i
    obtain ⟨e1, g, hI1⟩ := (hE i hi).send hI0 hfi
    simp only [Machine.all, List.length_append, List.map_append, List.append_assoc] at hn hr
    rw [Nat.add_assoc, ← List.replicate_append_replicate] at hr
    simp only [interleave, List.length_map, List.map_map] at hn hr
    obtain ⟨e2, cm2, a1, ⟨q', hq, a2⟩, a3⟩ := drainPackets_run ht (((em i).step (s i) f).1.map (tag i)) n e1 ((em i).step (s i) f).2
      cm _ _ c (by rw [List.length_map]; omega) ⟨_, rfl, by simpa using hI1⟩
      (by rw [List.length_map, List.map_map]; exact hr)
    obtain rfl : q' = [] := by cases q' <;> first | rfl | cases hq
    obtain ⟨ces', b⟩ := ih (ces.set i ⟨e2⟩) (upd s i ((em i).step (s i) f).2) cm2 c (by simp only [interleave]; omega)
      (by simpa using hl) (fun j hj => by
        by_cases h : i = j
        · subst h
          exact ⟨e2, by rw [List.getElem?_set_self (by omega)], by simpa [upd] using a2⟩
        · obtain ⟨e, x1, x2⟩ := hI j hj
          refine ⟨e, by rw [List.getElem?_set_ne h]; exact x1, ?_⟩
          simp only [upd]
          rw [if_neg (fun h' => h h'.symm)]
          exact x2) (fun y hy => hf y (by simp [hy])) a3
    refine ⟨ces', ?_⟩
    simp only [encodeStreams, h0, EncContext.sendFrame, g, ok_bind, pure_eq_ok, a1]
    exact b

theorem flushDecoders_run {N : Nat} {dc : Decoder C} {dm : Nat → Machine T Packet Frame} {J : Nat → C → T → List Frame → Prop}
    (hD : ∀ i < N, DecodesAll dc (dm i) (J i)) {k : Nat} {s : Nat → T} (cds : List (DecContext C)) : ∀ i : Nat,
    i + cds.length ≤ N → (∀ j < N, ((dm j).finish (s j)).length < k) →
    (∀ j, j < cds.length → ∃ e, cds[j]? = some ⟨e⟩ ∧ J (i + j) e (s (i + j)) []) →
    ∃ cds', flushDecoders dc k i cds = .ok (.ok (finishFrom dm s i cds.length), cds') := by
  induction cds with
  | nil => exact fun i _ _ _ => ⟨[], rfl⟩
  | cons cd cds ih =>
    intro i hi hk hJ
    obtain ⟨e, h0, hJ0⟩ := hJ 0 (by simp)
    simp only [List.getElem?_cons_zero, Option.some.injEq] at h0
    subst h0
    rw [Nat.add_zero] at hJ0
    rw [List.length_cons] at hi
    obtain ⟨e1, s1, g, hJ1⟩ := (hD i (by omega)).flush hJ0
    obtain ⟨e2, a1, _⟩ := drainFrames_run (hD i (by omega)) ((dm i).finish (s i)) k e1 s1 (hk i (by omega)) hJ1
    obtain ⟨cds', b⟩ := ih (i + 1) (by omega) hk (fun j hj => by
      obtain ⟨e, x1, x2⟩ := hJ (j + 1) (by simpa using hj)
      exact ⟨e, by simpa using x1, by rwa [show i + 1 + j = i + (j + 1) by omega]⟩)
    refine ⟨⟨e2⟩ :: cds', ?_⟩
    simp only [flushDecoders, DecContext.flush, g, ok_bind, pure_eq_ok, a1, b, List.length_cons, finishFrom]

theorem playAll_run {N : Nat} {dc : Decoder C} {dm : Nat → Machine T Packet Frame} {J : Nat → C → T → List Frame → Prop}
    (hD : ∀ i < N, DecodesAll dc (dm i) (J i)) {dmx : Demuxer D R} {bf : Buffered R} {fuel k : Nat} (ps : List (Nat × Packet)) :
    ∀ (n : Nat) (cds : List (DecContext C)) (s : Nat → T) (c c' : Context D R), ps.length < n → cds.length = N →
    (∀ j < N, ((dm j).all (s j) (only j ps)).length < k) →
    (∀ j, j < N → ∃ e, cds[j]? = some ⟨e⟩ ∧ J j e (s j) []) →
    (∀ y ∈ ps, y.1 < N ∧ y.2.stream_index = y.1) →
    readEvents dmx bf fuel (ps.length + 1) c = .ok (ps.map (fun y => .ok (.NewPacket y.2)) ++ [.ok .Eof], c') →
    ∃ cds', playAll dc dmx bf fuel k n cds c = .ok (.ok ((interleave N dm).all s ps), cds', c') := by
  induction ps with
  | nil =>
    intro n cds s c c' hn hl hk hJ _ hr
    obtain ⟨n, rfl⟩ : ∃ k, n = k + 1 := ⟨n - 1, by simp at hn; omega⟩
    simp only [List.length_nil, readEvents] at hr
    subst hl
    cases he : readEvent dmx bf fuel c with
    | error er => rw [he] at hr; cases hr
    | ok r =>
      obtain ⟨x, c1⟩ := r
      rw [he] at hr
      cases hr
      obtain ⟨cds', a⟩ := flushDecoders_run hD (k := k) (s := s) cds 0 (by omega) hk (fun j hj => by simpa using hJ j hj)
      exact ⟨cds', by simp only [playAll, he, ok_bind, a]; rfl⟩
  | cons y ps ih =>
    intro n cds s c c' hn hl hk hJ hps hr
    obtain ⟨i, p⟩ := y
    obtain ⟨hi, hpi⟩ := hps (i, p) (by simp)
    simp only at hi hpi
    obtain ⟨n, rfl⟩ : ∃ k, n = k + 1 := ⟨n - 1, by simp at hn; omega⟩
    rw [List.length_cons] at hr
    simp only [readEvents] at hr
    cases he : readEvent dmx bf fuel c with
    | error er => rw [he] at hr; cases hr
    | ok r =>
      obtain ⟨x, c1⟩ := r
      simp only [he, ok_bind] at hr
      cases he2 : readEvents dmx bf fuel (ps.length + 1) c1 with
      | error er =>
        simp only [readEvents] at he2
        rw [he2] at hr; cases hr
      | ok r =>
        obtain ⟨xs, c2⟩ := r
        have he2' := he2
        simp only [readEvents] at he2
        rw [he2] at hr
        cases hr
        obtain ⟨e, h0, hJ0⟩ := hJ i hi
        obtain ⟨e1, g, hJ1⟩ := (hD i hi).send p hJ0
        have hki := hk i hi
        rw [show only i ((i, p) :: ps) = p :: only i ps by simp [only], Machine.all, List.length_append] at hki
        obtain ⟨e2, a1, a2⟩ := drainFrames_run (hD i hi) ((dm i).step (s i) p).1 k e1 _ (by omega) hJ1
        obtain ⟨cds', b⟩ := ih n (cds.set i ⟨e2⟩) (upd s i ((dm i).step (s i) p).2) c1 c2 (by simpa using hn)
          (by simpa using hl) (fun j hj => by
            by_cases h : i = j
            · subst h
              simp only [upd, if_true]
              omega
            · have := hk j hj
              rw [show only j ((i, p) :: ps) = only j ps by simp [only, h]] at this
              simp only [upd]
              rw [if_neg (fun h' => h h'.symm)]
              exact this) (fun j hj => by
            by_cases h : i = j
            · subst h
              exact ⟨e2, by rw [List.getElem?_set_self (by omega)], by simpa [upd] using a2⟩
            · obtain ⟨e, x1, x2⟩ := hJ j hj
              refine ⟨e, by rw [List.getElem?_set_ne h]; exact x1, ?_⟩
              simp only [upd]
              rw [if_neg (fun h' => h h'.symm)]
              exact x2) (fun y hy => hps y (by simp [hy])) he2'
        refine ⟨cds', ?_⟩
        have hidx : (if p.stream_index < 0 then none else cds[p.stream_index.toNat]?) = some ⟨e⟩ := by
          rw [hpi, if_neg (by omega), Int.toNat_natCast]; exact h0
        simp only [playAll, he, ok_bind, hidx, pure_eq_ok, DecContext.sendPacket, g, a1]
        rw [hpi, Int.toNat_natCast]
        simp only [b, ok_bind, Machine.all, interleave]

theorem openEncoders_run {reg : Codecs E} (names : List String) : ∀ eds : List (Codec.Descriptor E),
    names.length = eds.length →
    (∀ (j : Nat) (name : String) (ed : Codec.Descriptor E), names[j]? = some name → eds[j]? = some ed → reg.byName name = .ok (some ed)) →
    openEncoders reg names = .ok (.ok (eds.map fun ed => ⟨ed.create⟩)) := by
  induction names with
  | nil =>
    intro eds hl _
    cases eds with
    | nil => rfl
    | cons _ _ => cases hl
  | cons name names ih =>
    intro eds hl h
    cases eds with
    | nil => cases hl
    | cons ed eds =>
      have h0 := h 0 name ed rfl rfl
      have h1 := ih eds (by simpa using hl) fun j nm e x1 x2 => h (j + 1) nm e (by simpa using x1) (by simpa using x2)
      simp only [openEncoders, EncContext.byName, h0, ok_bind, pure_eq_ok, Option.map_some, h1, List.map_cons]

theorem openDecoders_run {dc : Decoder C} {reg : Codecs C} (P : Nat → C → Prop) (sts : List Stream) : ∀ i : Nat,
    (∀ (j : Nat) (st : Stream), sts[j]? = some st → ∃ cname dd x d1 d2, st.params.codec_id = some cname ∧ reg.byName cname = .ok (some dd) ∧
      st.params.extradata = some x ∧ dc.setExtradata dd.create x = .ok d1 ∧ dc.configure d1 = .ok (.ok (), d2) ∧
      P (i + j) d2) →
    ∃ cds, openDecoders dc reg sts = .ok (.ok cds) ∧ cds.length = sts.length ∧
      ∀ j, j < sts.length → ∃ e, cds[j]? = some ⟨e⟩ ∧ P (i + j) e := by
  induction sts with
  | nil => exact fun i _ => ⟨[], rfl, rfl, by simp⟩
  | cons st sts ih =>
    intro i h
    obtain ⟨cname, dd, x, d1, d2, h1, h2, h3, h4, h5, h6⟩ := h 0 st rfl
    obtain ⟨cds, g1, g2, g3⟩ := ih (i + 1) fun j st hst => by
      rw [show i + 1 + j = i + (j + 1) by omega]
      exact h (j + 1) st (by simpa using hst)
    refine ⟨⟨d2⟩ :: cds, ?_, by simp [g2], ?_⟩
    · simp only [openDecoders, h1, Option.getD_some, DecContext.byName, h2, ok_bind, pure_eq_ok, Option.map_some, h3,
        DecContext.setExtradata, h4, DecContext.configure, h5, g1]
    · intro j hj
      cases j with
      | zero => exact ⟨d2, rfl, h6⟩
      | succ j =>
        obtain ⟨e, x1, x2⟩ := g3 j (by simpa using hj)
        exact ⟨e, by simpa using x1, by rwa [show i + (j + 1) = i + 1 + j by omega]⟩

/-- C163. A file of several streams, each with an encoder and a decoder as in C160, the one opened by name and the other by
the codec id of the file's stream. The frames of all streams are encoded in any interleaving. The player receives for
every stream the frames of this stream, all of them, in order. -/
theorem c163_streams (ec : Encoder E) (dc : Decoder C) (ereg : Codecs E) (dreg : Codecs C)
    (F : Format D) (hF : F.Framed) (hdr : M → List U8 × M) (pkt : M → Packet → List U8 × M)
    (trl : M → List U8 × M) (wire : Packet → Packet) (info : GlobalInfo) (m : M) (d : D) (good : Packet → Prop)
    (sync : M → D → Prop) (h : Undoes F hdr pkt trl wire info m d good sync)
    (hw : ∀ p, (wire p).stream_index = p.stream_index)
    (em : Nat → Machine S Frame Packet) (dm : Nat → Machine T Packet Frame) (fine : Nat → Frame → Prop)
    (I : Nat → E → S → List Packet → Prop) (J : Nat → C → T → List Frame → Prop) (s0 : Nat → S) (t0 : Nat → T)
    (hE : ∀ i < info.streams.length, Encodes ec (em i) (fine i) (I i))
    (hD : ∀ i < info.streams.length, DecodesAll dc (dm i) (J i))
    (names : List String) (eds : List (Codec.Descriptor E))
    (hnames : names.length = info.streams.length ∧ eds.length = info.streams.length)
    (hopen : ∀ (j : Nat) (name : String) (ed : Codec.Descriptor E), names[j]? = some name → eds[j]? = some ed → ereg.byName name = .ok (some ed))
    (hst : ∀ (j : Nat) (st : Stream) (ed : Codec.Descriptor E), info.streams[j]? = some st → eds[j]? = some ed → I j ed.create (s0 j) [] ∧
      ∃ cname dd x d1 d2, ec.getExtradata ed.create = .ok (some x) ∧
        st.params.codec_id = some cname ∧ dreg.byName cname = .ok (some dd) ∧ st.params.extradata = some x ∧
        dc.setExtradata dd.create x = .ok d1 ∧ dc.configure d1 = .ok (.ok (), d2) ∧ J j d2 (t0 j) [])
    (fs : List (Nat × Frame)) (hfs : ∀ y ∈ fs, y.1 < info.streams.length ∧ fine y.1 y.2)
    (hgood : ∀ y ∈ (interleave info.streams.length em).all s0 fs, good (tag y.1 y.2))
    (hinv : ∀ i < info.streams.length,
      (dm i).all (t0 i) (((em i).all (s0 i) (only i fs)).map fun p => kept info.streams wire (tag i p)) = only i fs)
    (sink : Sink) (h0 : sink.data = [] ∧ sink.pos = 0)
    (hq : ∀ c, (sink.script c).fail = none ∧ 0 < (sink.script c).len)
    (acts : Nat → Act) (ha : ∀ c, (acts c).fail = none) (cap : Nat) :
    ∃ ces, openEncoders ereg names = .ok (.ok ces) ∧
    ∃ ps, ps = ((interleave info.streams.length em).all s0 fs).map (fun y => tag y.1 y.2) ∧
    ∀ n fuel, ps.length < n → (Mux.fileBytes hdr pkt trl m ps).length < fuel →
    ∃ ces' c, encodeStreamsFile ec Mux.sinkOps (Mux.bytesMuxer fuel hdr pkt trl) n fs ces
        (Mux.Context.new m (Mux.Writer.new sink)) = .ok (.ok (), ces', c) ∧
    ∀ file, c.intoWriter.writer.data = file → ∀ k, fs.length < k →
    ∃ c1 c2 cds cds' out,
      readHeaders F.demuxer accBuffered (file.length + 2)
        (Context.new d (Acc.withCapacity cap ⟨file, 0, acts, 0⟩)) = .ok (.ok (), c1) ∧
      openDecoders dc dreg c1.info.streams = .ok (.ok cds) ∧
      playAll dc F.demuxer accBuffered (file.length + 1) k n cds c1 = .ok (.ok out, cds', c2) ∧
      ∀ i < info.streams.length, only i out = only i fs := by
  refine ⟨_, openEncoders_run names eds (hnames.1.trans hnames.2.symm) hopen, _, rfl, ?_⟩
  intro n fuel hn hfuel
  rw [List.length_map] at hn
  obtain ⟨c, hm, hr⟩ := c91_roundtrip F hF hdr pkt trl wire info m d good sync h
    (((interleave info.streams.length em).all s0 fs).map fun y => tag y.1 y.2) (by
      intro p hp
      obtain ⟨y, hy, rfl⟩ := List.mem_map.1 hp
      exact hgood y hy) sink h0 hq fuel hfuel acts ha cap 1
  have hcd : ∀ j, j < info.streams.length → ∃ e, (eds.map fun ed => (⟨ed.create⟩ : EncContext E))[j]? = some ⟨e⟩ ∧
      I j e (s0 j) [] := by
    intro j hj
    have hje : j < eds.length := by omega
    refine ⟨eds[j].create, by simp [hje], (hst j info.streams[j] eds[j] (List.getElem?_eq_getElem hj)
      (List.getElem?_eq_getElem hje)).1⟩
  simp only [List.cons_append, Mux.Context.run, Mux.Context.step] at hm
  cases hh : (Mux.Context.new m (Mux.Writer.new sink)).writeHeader (Mux.bytesMuxer fuel hdr pkt trl) with
  | error er => rw [hh] at hm; cases hm
  | ok r =>
    obtain ⟨y, cm⟩ := r
    simp only [hh, ok_bind] at hm
    cases hr1 : cm.run Mux.sinkOps (Mux.bytesMuxer fuel hdr pkt trl)
        ((((interleave info.streams.length em).all s0 fs).map fun y => tag y.1 y.2).map .packet ++ [.trailer]) with
    | error er => rw [hr1] at hm; cases hm
    | ok r =>
      obtain ⟨ys, c'⟩ := r
      simp only [hr1, ok_bind, pure_eq_ok, List.replicate_succ, Except.ok.injEq, Prod.mk.injEq, List.cons.injEq] at hm
      obtain ⟨⟨rfl, hys⟩, rfl⟩ := hm
      rw [hys, ← List.replicate_succ, List.map_map, List.length_map] at hr1
      obtain ⟨ces', he'⟩ := encodeStreams_run hE fs _ s0 cm c' hn (by rw [List.length_map]; exact hnames.2) hcd hfs hr1
      refine ⟨ces', c', by simp only [encodeStreamsFile, hh, ok_bind]; exact he', ?_⟩
      intro file hfile k hk
      obtain ⟨c1, c2, r1, r2, r3⟩ := hr file hfile
      obtain ⟨cds, o1, o2, o3⟩ := openDecoders_run (dc := dc) (reg := dreg) (fun j e => J j e (t0 j) []) info.streams 0 (by
        intro j st hj
        have hjl : j < info.streams.length := by
          rcases Nat.lt_or_ge j info.streams.length with h' | h'
          · exact h'
          · rw [List.getElem?_eq_none h'] at hj; cases hj
        have hje : j < eds.length := by omega
        obtain ⟨_, cname, dd, x, d1, d2, _, x2, x3, x4, x5, x6, x7⟩ := hst j st eds[j] hj (List.getElem?_eq_getElem hje)
        exact ⟨cname, dd, x, d1, d2, x2, x3, x4, x5, x6, by rw [Nat.zero_add]; exact x7⟩)
      simp only [Nat.zero_add] at o3
      have honly : ∀ i < info.streams.length, (dm i).all (t0 i) (only i (((interleave info.streams.length em).all s0 fs).map
          fun y => (y.1, kept info.streams wire (tag y.1 y.2)))) = only i fs := by
        intro i hi
        rw [only_map i (fun i p => kept info.streams wire (tag i p)), only_all em hi, hinv i hi]
      have hkeys : ∀ y ∈ (interleave info.streams.length em).all s0 fs, y.1 < info.streams.length :=
        keys_all em fs (fun y hy => (hfs y hy).1) s0
      obtain ⟨cds', hd'⟩ := playAll_run hD (dmx := F.demuxer) (bf := accBuffered) (fuel := file.length + 1) (k := k)
        (((interleave info.streams.length em).all s0 fs).map fun y => (y.1, kept info.streams wire (tag y.1 y.2))) n cds t0 c1 c2
        (by rw [List.length_map]; exact hn) o2 (fun j hj => by
          rw [honly j hj]
          exact Nat.lt_of_le_of_lt (only_length j fs) hk) o3 (by
          intro y hy
          obtain ⟨z, hz, rfl⟩ := List.mem_map.1 hy
          exact ⟨hkeys z hz, hw _⟩) (by
          rw [List.length_map] at r3 ⊢
          rw [r3, List.map_map, List.map_map]
          rfl)
      refine ⟨c1, c2, cds, cds', _, r1, by rw [r2]; exact o1, hd', ?_⟩
      intro i hi
      rw [only_all dm hi, honly i hi]

/-! ### example: two streams, the one with the codec of C160's examples and the other with a codec without delay; the records
of the format have the stream's index behind the length -/

def twoInfo : GlobalInfo :=
  ⟨none, none, [{ Stream.fromParams { sampleParams with codec_id := some "pair", extradata := some [1, 2] } ⟨1, 25⟩ with id := 0 },
    { Stream.fromParams { sampleParams with codec_id := some "plain", extradata := some [3] } ⟨1, 25⟩ with id := 1, index := 1 }]⟩

def twoFormat : Format Unit where
  head _ _ w := match w with
    | 65 :: 86 :: _ => some (2, (), twoInfo)
    | _ => none
  headNeed _ _ _ := 2
  parse _ w := match w with
    | n :: i :: l => if n = 0 ∨ l.length < n.toNat then none
      else some (n.toNat + 2, .NewPacket { Packet.new with data := l.take n.toNat, stream_index := i.toNat }, ())
    | _ => none
  need _ w := match w with
    | n :: l => (n :: l).length + n.toNat + 2
    | [] => 1

def twoPkt (m : Nat) (p : Packet) : List U8 × Nat :=
  (BitVec.ofNat 8 p.data.length :: BitVec.ofInt 8 p.stream_index :: p.data, m + 1)

theorem two_framed : twoFormat.Framed where
  headStable d i w u x h := by
    simp only [twoFormat] at h ⊢
    split at h
    · simpa using h
    · cases h
  headNeed _ _ _ _ := by simp [twoFormat]
  stable d w u x h := by
    simp only [twoFormat] at h ⊢
    match w with
    | [] => cases h
    | [n] => cases h
    | n :: i :: l =>
      simp only [List.cons_append] at h ⊢
      by_cases hc : n = 0 ∨ l.length < n.toNat
      · rw [if_pos hc] at h; cases h
      · rw [if_neg hc] at h
        have h1 := not_or.1 hc
        rw [if_neg (not_or.2 ⟨h1.1, by rw [List.length_append]; omega⟩), List.take_append_of_le_length (by omega)]
        exact h
  need d w h := by
    cases w with
    | nil => simp [twoFormat]
    | cons n l => simp only [twoFormat]; omega
  answers d w k ev d' n h := by
    simp only [twoFormat] at h
    match w with
    | [] => cases h
    | [n] => cases h
    | n :: i :: l =>
      simp only at h
      split at h
      · cases h
      · cases h; simp

def twoWire (p : Packet) : Packet := { Packet.new with data := p.data, stream_index := p.stream_index }

theorem two_undoes : Undoes twoFormat avHdr twoPkt avTrl twoWire twoInfo 0 ()
    (fun p => 0 < p.data.length ∧ p.data.length < 256 ∧ 0 ≤ p.stream_index ∧ p.stream_index < 256) (fun _ _ => True) where
  header := ⟨(), rfl, trivial⟩
  packet m d p _ hp := by
    refine ⟨(), ?_, trivial⟩
    have hn : (BitVec.ofNat 8 p.data.length).toNat = p.data.length := by
      rw [BitVec.toNat_ofNat]; exact Nat.mod_eq_of_lt hp.2.1
    have h0 : BitVec.ofNat 8 p.data.length ≠ 0 := by
      intro h
      have := congrArg BitVec.toNat h
      rw [hn] at this
      have h1 := hp.1
      rw [this] at h1
      exact absurd h1 (by decide)
    have hi : ((BitVec.ofInt 8 p.stream_index).toNat : Int) = p.stream_index := by
      rw [BitVec.toNat_ofInt]
      have := hp.2.2
      omega
    simp only [twoFormat, twoPkt]
    rw [if_neg (not_or.2 ⟨h0, by rw [hn]; exact Nat.lt_irrefl _⟩), hn, List.take_length, List.length_cons, List.length_cons, hi]
    rfl
  trailer m d _ := rfl

/-- Without delay. -/
def plainly {A B : Type} (g : A → B) : Machine (Option A) A B where
  step s a := ([g a], s)
  finish _ := []

def whichE : Nat → Machine (Option Frame) Frame Packet
  | 0 => pairing pairPacket
  | _ => plainly pairPacket

def whichD : Nat → Machine (Option Packet) Packet Frame
  | 0 => pairing pairFrame
  | _ => plainly pairFrame

/-- Objects of both codecs: a number, and the state. -/
def twoEncoder : Encoder (Nat × Option Frame × List Packet) where
  getExtradata e := .ok (some (if e.1 = 0 then [1, 2] else [3]))
  sendFrame e f := .ok (.ok (), e.1, ((whichE e.1).step e.2.1 f).2, e.2.2 ++ ((whichE e.1).step e.2.1 f).1)
  receivePacket e := .ok (match e.2.2 with
    | [] => (.error .MoreDataNeeded, e)
    | p :: q => (.ok p, e.1, e.2.1, q))
  flush e := .ok (.ok (), e.1, none, e.2.2 ++ (whichE e.1).finish e.2.1)
  configure e := .ok (.ok (), e)
  setOption e k _ := .ok (.error (.Unsupported k), e)
  setParams e _ := .ok (.ok (), e)
  getParams _ := .ok (.error .ConfigurationIncomplete)

def twoDecoder : Decoder (Nat × List U8 × Option Packet × List Frame) where
  setExtradata d l := .ok (d.1, l, d.2.2)
  sendPacket d p := .ok (.ok (), d.1, d.2.1, ((whichD d.1).step d.2.2.1 p).2, d.2.2.2 ++ ((whichD d.1).step d.2.2.1 p).1)
  receiveFrame d := .ok (match d.2.2.2 with
    | [] => (.error .MoreDataNeeded, d)
    | f :: q => (.ok f, d.1, d.2.1, d.2.2.1, q))
  configure d := .ok (if d.2.1 = (if d.1 = 0 then [1, 2] else [3]) then .ok () else .error .ConfigurationInvalid, d)
  flush d := .ok (.ok (), d.1, d.2.1, none, d.2.2.2 ++ (whichD d.1).finish d.2.2.1)

theorem two_encodes (i : Nat) : Encodes twoEncoder (whichE i) (fun _ => True) (fun e s q => e = (i, s, q)) where
  send := by rintro e s q f rfl _; exact ⟨_, rfl, rfl⟩
  receive := by rintro e s p q rfl; exact ⟨_, rfl, rfl⟩
  empty := by rintro e s rfl; exact ⟨_, rfl, rfl⟩
  flush := by rintro e s q rfl; exact ⟨_, none, rfl, rfl⟩

theorem two_decodes (i : Nat) : DecodesAll twoDecoder (whichD i) (fun d s q => ∃ x, d = (i, x, s, q)) where
  send := by rintro d s q p ⟨x, rfl⟩; exact ⟨_, rfl, x, rfl⟩
  receive := by rintro d s f q ⟨x, rfl⟩; exact ⟨_, rfl, x, rfl⟩
  empty := by rintro d s ⟨x, rfl⟩; exact ⟨_, rfl, x, rfl⟩
  flush := by rintro d s q ⟨x, rfl⟩; exact ⟨_, none, rfl, x, rfl⟩

def twoEncoders : List (Codec.Descriptor (Nat × Option Frame × List Packet)) :=
  [⟨(0, none, []), ⟨"pair", "p", "", ""⟩⟩, ⟨(1, none, []), ⟨"plain", "q", "", ""⟩⟩]

/-- Registered in the other order. -/
def twoDecoders : List (Codec.Descriptor (Nat × List U8 × Option Packet × List Frame)) :=
  [⟨(1, [], none, []), ⟨"plain", "q", "", ""⟩⟩, ⟨(0, [], none, []), ⟨"pair", "p", "", ""⟩⟩]

def twoFrames : List (Nat × Frame) := [(0, pcmFrame [7]), (1, pcmFrame [8, 8]), (0, pcmFrame [9]), (0, pcmFrame [5]), (1, pcmFrame [6])]

/-- The hypotheses of C163 hold. -/
example : (∀ p, (twoWire p).stream_index = p.stream_index) ∧ ["pair", "plain"].length = twoInfo.streams.length ∧
    (∀ (j : Nat) (name : String) (ed : Codec.Descriptor (Nat × Option Frame × List Packet)), ["pair", "plain"][j]? = some name →
      twoEncoders[j]? = some ed → (Codecs.fromList twoEncoders).byName name = .ok (some ed)) ∧
    (∀ (j : Nat) (st : Stream) (ed : Codec.Descriptor (Nat × Option Frame × List Packet)), twoInfo.streams[j]? = some st → twoEncoders[j]? = some ed → ed.create = (j, none, []) ∧
      ∃ cname dd x d1 d2, twoEncoder.getExtradata ed.create = .ok (some x) ∧
        st.params.codec_id = some cname ∧ (Codecs.fromList twoDecoders).byName cname = .ok (some dd) ∧
        st.params.extradata = some x ∧
        twoDecoder.setExtradata dd.create x = .ok d1 ∧ twoDecoder.configure d1 = .ok (.ok (), d2) ∧ ∃ x, d2 = (j, x, none, [])) ∧
    (∀ y ∈ twoFrames, y.1 < twoInfo.streams.length) ∧
    (∀ y ∈ (interleave 2 whichE).all (fun _ => none) twoFrames, 0 < (tag y.1 y.2).data.length ∧ (tag y.1 y.2).data.length < 256 ∧
      0 ≤ (tag y.1 y.2).stream_index ∧ (tag y.1 y.2).stream_index < 256) ∧
    (∀ i < 2, (whichD i).all none (((whichE i).all none (only i twoFrames)).map fun p => kept twoInfo.streams twoWire (tag i p)) =
      only i twoFrames) := by
  refine ⟨fun _ => rfl, rfl, ?_, ?_, by decide, by decide +kernel, by decide +kernel⟩
  · intro j name ed h1 h2
    match j with
    | 0 => cases h1; cases h2; rfl
    | 1 => cases h1; cases h2; rfl
    | j + 2 => cases h1
  · intro j st ed h1 h2
    match j with
    | 0 => cases h1; cases h2; exact ⟨rfl, _, _, _, _, _, rfl, rfl, rfl, rfl, rfl, rfl, _, rfl⟩
    | 1 => cases h1; cases h2; exact ⟨rfl, _, _, _, _, _, rfl, rfl, rfl, rfl, rfl, rfl, _, rfl⟩
    | j + 2 => cases h1

/-- The whole way: the second stream's first frame is played before the first one's. -/
example : (match openEncoders (Codecs.fromList twoEncoders) ["pair", "plain"] with
    | .ok (.ok ces) => (match encodeStreamsFile twoEncoder Mux.sinkOps (Mux.bytesMuxer 40 avHdr twoPkt avTrl) 9 twoFrames ces
      (Mux.Context.new 0 (Mux.Writer.new ⟨[], 0, fun k => ⟨none, 1 + k % 2⟩, 0, 0⟩)) with
      | .ok (.ok (), _, c) => (match readHeaders twoFormat.demuxer accBuffered 40
          (Context.new () (Acc.withCapacity 1 ⟨c.intoWriter.writer.data, 0, sampleActs, 0⟩)) with
        | .ok (.ok (), c1) => (match openDecoders twoDecoder (Codecs.fromList twoDecoders) c1.info.streams with
          | .ok (.ok cds) => (match playAll twoDecoder twoFormat.demuxer accBuffered 40 9 9 cds c1 with
            | .ok (.ok out, _, _) => decide (c.intoWriter.writer.data =
                  [65, 86, 2, 1, 8, 8, 1, 0, 9, 1, 0, 7, 1, 1, 6, 1, 0, 5, 0] ∧
                out = [(1, pcmFrame [8, 8]), (0, pcmFrame [7]), (0, pcmFrame [9]), (1, pcmFrame [6]), (0, pcmFrame [5])])
            | _ => false)
          | _ => false)
        | _ => false)
      | _ => false)
    | _ => false) = true := by decide +kernel

end Verif.RoundTrip
