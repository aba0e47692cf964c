import Verif.Demux.Jumps
import Verif.Mux.Props
import Verif.Mux.File
import Verif.Bytes.Props

/-!
# Property C154: files with a table of positions

The muxer notes where `Writer::position` says that each packet begins and writes these places behind the packets, in an order
of its own. Muxers work for every `W: Write` (muxer.rs:72-80) and cannot seek; so the application notes with `Writer::as_ref`
where the table begins, takes the writer with `into_writer`, and goes back to the header to say it. The demuxer follows them: header, table, packets. The format
of the packets is arbitrary; numbers are written and read with the library's `put_u64b` and `get_u64b`.
-/

namespace Verif.RoundTrip
open Verif Verif.Io Verif.Frame Verif.Stream Verif.Packet Verif.Demux
open Verif.Bytes (put_u64b get_u64b toBe)
open Verif.Mux (Writer sinkOps)

/-- How a packet is written and read. -/
structure Records where
  enc : Packet → List U8
  dec : List U8 → Option Packet
  need : List U8 → Nat

/-- `wire p` is what is kept of a packet `p`. -/
structure Records.Undone (R : Records) (wire : Packet → Packet) (good : Packet → Prop) : Prop where
  enc : ∀ p, good p → R.dec (R.enc p) = some (wire p)
  stable : ∀ w u p, R.dec w = some p → R.dec (w ++ u) = some p
  need : ∀ w, R.dec w = none → w.length < R.need w
  empty : R.dec [] = none

/-! ### the muxer -/

/-- The packets so far, and where each begins. -/
abbrev Places := List (Packet × Nat)

/-- A number in eight bytes. -/
def number (n : Nat) : Rust (List U8) := put_u64b (List.replicate 8 0) (BitVec.ofNat 64 n)

/-- Numbers behind each other. -/
def numbers : List Nat → Rust (List U8)
  | [] => .ok []
  | n :: ns => do return (← number n) ++ (← numbers ns)

/-- `write_all` with the errors of the library. -/
def store (fuel : Nat) (w : Writer Sink) (l : List U8) : Rust (Except Err Unit × Writer Sink) := do
  let (x, w) ← writeAll (Writer.write sinkOps) fuel w l
  match x with
  | .ok () => .ok (.ok (), w)
  | .error e => .ok (.error (.Io e), w)

/-- The muxer. -/
def indexMuxer (R : Records) (order : Places → Places) (fuel : Nat) : Mux.Muxer Places Sink where
  configure m := .ok (.ok (), m)
  writeHeader m w := do
    let (x, w) ← store fuel w (← number 0)
    return (x, m, w)
  writePacket m w p := do
    let at_ := w.position
    let (x, w) ← store fuel w (R.enc p)
    return (x, m ++ [(p, at_)], w)
  writeTrailer m w := do
    let table := (order m).map (·.2)
    let (x, w) ← store fuel w (← numbers (table.length :: table))
    return (x, m, w)
  setGlobalInfo m _ := .ok (.ok (), m)
  setOption m _ _ := .ok (.ok (), m)

/-- The application: header, packets and trailer through a context; then it takes the writer and puts the place of the table to
the beginning. -/
def writeIndexed (R : Records) (order : Places → Places) (fuel : Nat) (sink : Sink) (ps : List Packet) :
    Rust (List (Except Err Unit) × Except Err Unit × Writer Sink) := do
  let (xs, c) ← (Mux.Context.new [] (Mux.Writer.new sink)).run sinkOps (indexMuxer R order fuel) (.header :: ps.map .packet)
  let at_ := c.writer.asRef.2
  let (x, c) ← c.writeTrailer sinkOps (indexMuxer R order fuel)
  let w := c.intoWriter
  let (y, w) ← w.seek sinkOps (.start 0)
  match y with
  | .error e => return (xs ++ [x], .error (.Io e), w)
  | .ok _ =>
    let (y, w) ← store fuel w (← number at_)
    return (xs ++ [x], y, w)

/-! ### the demuxer -/

/-- The number at the beginning. -/
def numberOf (w : List U8) : Option Nat :=
  match get_u64b w with
  | .ok v => some v.toNat
  | .error _ => none

/-- That many numbers. -/
def numbersOf : Nat → List U8 → Option (List Nat)
  | 0, _ => some []
  | n + 1, w => do return (← numberOf w) :: (← numbersOf n (w.drop 8))

/-- To the next place, or to the end. -/
def toNext : List Nat → SeekFrom
  | [] => .end 0
  | q :: _ => .start q

/-- The demuxer: without a state the table is to be read, then the state has the places that are left. -/
def indexFormat (R : Records) (info : GlobalInfo) : Jumping (Option (List Nat)) where
  head _ _ w := (numberOf w).map fun n => (.start n, none, info)
  headNeed _ _ _ := 8
  parse d w := match d with
    | none => do
      let n ← numberOf w
      let qs ← numbersOf n (w.drop 8)
      return (toNext qs, none, some qs.tail)
    | some qs => do
      let p ← R.dec w
      return (toNext qs, some (.NewPacket p), some qs.tail)
  need d w := match d with
    | none => 8 + 8 * (numberOf w).getD 0
    | some _ => R.need w

/-! ### numbers -/

theorem number_ok (n : Nat) : number n = .ok (toBe 8 (BitVec.ofNat 64 n)) := by
  simp [number, put_u64b, Bytes.write_bytes_be, Bytes.copyToStart]

theorem toBe_length (v : BitVec 64) : (toBe 8 v).length = 8 := by simp [toBe]

theorem numberOf_toBe (n : Nat) (h : n < 2 ^ 64) (u : List U8) : numberOf (toBe 8 (BitVec.ofNat 64 n) ++ u) = some n := by
  have hl := toBe_length (BitVec.ofNat 64 n)
  rw [numberOf, Bytes.get_u64b_eq, Bytes.getGen, if_pos (by rw [List.length_append]; omega)]
  simp only
  rw [List.take_append_of_le_length (by omega), List.take_of_length_le (by omega)]
  have := Bytes.fromBe_toBe 8 (BitVec.ofNat 64 n)
  rw [this, BitVec.toNat_ofNat, Nat.mod_eq_of_lt h]

theorem numberOf_none (w : List U8) : numberOf w = none ↔ w.length < 8 := by
  rw [numberOf, Bytes.get_u64b_eq, Bytes.getGen]
  by_cases h : 8 ≤ w.length
  · simp only [if_pos h]; simp; omega
  · simp only [if_neg h]; simp; omega

theorem numberOf_stable (w u : List U8) (n : Nat) (h : numberOf w = some n) : numberOf (w ++ u) = some n := by
  have hl : 8 ≤ w.length := by
    have : ¬ w.length < 8 := fun h' => by rw [(numberOf_none w).2 h'] at h; cases h
    omega
  rw [numberOf, Bytes.get_u64b_eq, Bytes.getGen, if_pos hl] at h
  rw [numberOf, Bytes.get_u64b_eq, Bytes.getGen, if_pos (by rw [List.length_append]; omega), List.take_append_of_le_length hl]
  exact h

theorem numbersOf_stable (n : Nat) : ∀ (w u : List U8) (qs : List Nat), numbersOf n w = some qs → numbersOf n (w ++ u) = some qs := by
  induction n with
  | zero => intro w u qs h; exact h
  | succ n ih =>
    intro w u qs h
    rw [numbersOf] at h ⊢
    cases h1 : numberOf w with
    | none => rw [h1] at h; cases h
    | some k =>
      have hl : 8 ≤ w.length := by
        have : ¬ w.length < 8 := fun h' => by rw [(numberOf_none w).2 h'] at h1; cases h1
        omega
      rw [h1] at h
      rw [numberOf_stable w u k h1, List.drop_append_of_le_length hl]
      cases h2 : numbersOf n (w.drop 8) with
      | none => rw [h2] at h; cases h
      | some ks => rw [h2] at h; rw [ih _ u ks h2]; exact h

theorem numbersOf_none (n : Nat) : ∀ w : List U8, numbersOf n w = none → w.length < 8 * n := by
  induction n with
  | zero => intro w h; cases h
  | succ n ih =>
    intro w h
    rw [numbersOf] at h
    cases h1 : numberOf w with
    | none => have := (numberOf_none w).1 h1; omega
    | some k =>
      rw [h1] at h
      cases h2 : numbersOf n (w.drop 8) with
      | none => have := ih _ h2; rw [List.length_drop] at this; omega
      | some ks => rw [h2] at h; cases h

/-- The bytes of the numbers. -/
def numBytes (ns : List Nat) : List U8 := ns.flatMap fun n => toBe 8 (BitVec.ofNat 64 n)

theorem numbers_ok (ns : List Nat) : numbers ns = .ok (numBytes ns) := by
  induction ns with
  | nil => rfl
  | cons n ns ih => simp only [numbers, number_ok, ih, ok_bind, pure_eq_ok, numBytes, List.flatMap_cons]

theorem numBytes_length (ns : List Nat) : (numBytes ns).length = 8 * ns.length := by
  induction ns with
  | nil => rfl
  | cons n ns ih =>
    rw [numBytes, List.flatMap_cons, List.length_append, toBe_length, List.length_cons]
    rw [numBytes] at ih
    omega

theorem numbersOf_ok (ns : List Nat) (h : ∀ n ∈ ns, n < 2 ^ 64) (u : List U8) :
    numbersOf ns.length (numBytes ns ++ u) = some ns := by
  induction ns with
  | nil => rfl
  | cons n ns ih =>
    rw [List.length_cons, numbersOf]
    have e : numBytes (n :: ns) ++ u = toBe 8 (BitVec.ofNat 64 n) ++ (numBytes ns ++ u) := by
      rw [numBytes, List.flatMap_cons, List.append_assoc]; rfl
    rw [e, numberOf_toBe n (h n (by simp)), List.drop_append_of_le_length (by rw [toBe_length]; omega),
      List.drop_eq_nil_of_le (by rw [toBe_length]; omega), List.nil_append, ih (fun k hk => h k (by simp [hk]))]
    rfl

/-! ### the format is one of C152 -/

theorem index_framed (R : Records) (wire : Packet → Packet) (good : Packet → Prop) (hR : R.Undone wire good) (info : GlobalInfo) :
    (indexFormat R info).Framed where
  headStable d i w u x h := by
    simp only [indexFormat] at h ⊢
    cases h1 : numberOf w with
    | none => rw [h1] at h; cases h
    | some n => rw [h1] at h; rw [numberOf_stable w u n h1]; exact h
  headNeed _ _ _ _ := by simp [indexFormat]
  stable d w u x h := by
    simp only [indexFormat] at h ⊢
    cases d with
    | none =>
      cases h1 : numberOf w with
      | none => simp [h1] at h
      | some n =>
        have hl : 8 ≤ w.length := by
          have : ¬ w.length < 8 := fun h' => by rw [(numberOf_none w).2 h'] at h1; cases h1
          omega
        simp only [h1, Option.bind_eq_bind, Option.bind_some] at h
        simp only [numberOf_stable w u n h1, List.drop_append_of_le_length hl, Option.bind_eq_bind, Option.bind_some]
        cases h2 : numbersOf n (w.drop 8) with
        | none => simp [h2] at h
        | some qs => rw [h2] at h; rw [numbersOf_stable n _ u qs h2]; exact h
    | some qs =>
      simp only at h ⊢
      cases h1 : R.dec w with
      | none => rw [h1] at h; cases h
      | some p => rw [h1] at h; rw [hR.stable w u p h1]; exact h
  need d w h := by
    simp only [indexFormat] at h ⊢
    cases d with
    | none =>
      cases h1 : numberOf w with
      | none => have := (numberOf_none w).1 h1; simp only [Option.getD_none]; omega
      | some n =>
        simp only [h1, Option.bind_eq_bind, Option.bind_some] at h
        cases h2 : numbersOf n (w.drop 8) with
        | none =>
          have := numbersOf_none n _ h2
          rw [List.length_drop] at this
          simp only [Option.getD_some]; omega
        | some qs => rw [h2] at h; cases h
    | some qs =>
      simp only at h ⊢
      cases h1 : R.dec w with
      | none => exact hR.need w h1
      | some p => rw [h1] at h; cases h
  answers d w sf ev d' n h := by
    simp only [indexFormat] at h
    cases d with
    | none =>
      cases h1 : numberOf w with
      | none => simp [h1] at h
      | some n =>
        cases h2 : numbersOf n (w.drop 8) with
        | none => simp [h1, h2] at h
        | some qs => simp [h1, h2] at h
    | some qs =>
      simp only at h
      cases h1 : R.dec w with
      | none => rw [h1] at h; cases h
      | some p => rw [h1] at h; cases h; simp

theorem toNext_forward (qs : List Nat) (k : Int) : toNext qs ≠ .current k := by cases qs <;> simp [toNext]

theorem index_noStepsBack (R : Records) (info : GlobalInfo) : (indexFormat R info).NoStepsBack where
  head d i w k d' i' h := by
    simp only [indexFormat] at h
    cases h1 : numberOf w with
    | none => rw [h1] at h; cases h
    | some n => rw [h1] at h; cases h
  parse d w k ev d' h := by
    exfalso
    simp only [indexFormat] at h
    cases d with
    | none =>
      cases h1 : numberOf w with
      | none => simp [h1] at h
      | some n =>
        cases h2 : numbersOf n (w.drop 8) with
        | none => simp [h1, h2] at h
        | some qs =>
          simp only [h1, h2, Option.bind_eq_bind, Option.bind_some, Option.pure_def, Option.some.injEq, Prod.mk.injEq] at h
          exact toNext_forward qs k h.1
    | some qs =>
      simp only at h
      cases h1 : R.dec w with
      | none => rw [h1] at h; cases h
      | some p =>
        simp only [h1, Option.bind_eq_bind, Option.bind_some, Option.pure_def, Option.some.injEq, Prod.mk.injEq] at h
        exact toNext_forward qs k h.1

/-! ### what the muxer writes -/

/-- The packets and where they begin, the first at `at_`. -/
def placed (R : Records) : Nat → List Packet → Places
  | _, [] => []
  | at_, p :: ps => (p, at_) :: placed R (at_ + (R.enc p).length) ps

/-- The file: the place of the table, the packets, and the table. -/
def indexFile (R : Records) (order : Places → Places) (ps : List Packet) : List U8 :=
  numBytes [8 + (ps.flatMap R.enc).length] ++ ps.flatMap R.enc ++
    numBytes ((order (placed R 8 ps)).length :: (order (placed R 8 ps)).map (·.2))

theorem store_ok (fuel : Nat) (s : Sink) (hq : ∀ c, (s.script c).fail = none ∧ 0 < (s.script c).len) (l : List U8)
    (hf : l.length < fuel) : ∃ s', store fuel ⟨s, s.pos⟩ l = .ok (.ok (), ⟨s', s'.pos⟩) ∧
      s'.data = overwrite s.data s.pos l ∧ s'.pos = s.pos + l.length ∧ s'.script = s.script := by
  rw [store, Mux.writer_writeAll]
  rcases Sink.writeAll_spec fuel s l 0 with ⟨_, h2⟩ | ⟨y, s', h1, h2, _, _, h5, h6⟩
  · exact absurd ⟨fun c _ => (hq c).1, by omega⟩ h2
  · cases y with
    | error e =>
      obtain ⟨_, _, c, h | h⟩ := h6 e rfl
      · rw [(hq c).1] at h; cases h
      · have := (hq c).2; omega
    | ok _ =>
      obtain ⟨d1, d2⟩ := h5 rfl
      exact ⟨s', by rw [h1]; rfl, d1, d2, h2⟩

theorem packets_run (R : Records) (order : Places → Places) (fuel : Nat) (u : Option Nat) (script : Nat → Act)
    (hq : ∀ c, (script c).fail = none ∧ 0 < (script c).len) : ∀ (ps : List Packet) (m : Places) (s : Sink),
    s.script = script → s.pos = s.data.length → (ps.flatMap R.enc).length < fuel →
    ∃ s', Mux.Context.run sinkOps (indexMuxer R order fuel) ⟨m, ⟨s, s.pos⟩, u⟩ (ps.map .packet) =
        .ok (List.replicate ps.length (.ok ()), ⟨m ++ placed R s.pos ps, ⟨s', s'.pos⟩, u⟩) ∧
      s'.data = s.data ++ ps.flatMap R.enc ∧ s'.pos = s'.data.length ∧ s'.script = script := by
  intro ps
  induction ps with
  | nil =>
    intro m s hs hp hf
    exact ⟨s, by simp [Mux.Context.run, placed], by simp, hp, hs⟩
  | cons p ps ih =>
    intro m s hs hp hf
    rw [List.flatMap_cons, List.length_append] at hf
    obtain ⟨s1, a1, a2, a3, a4⟩ := store_ok fuel s (hs ▸ hq) (R.enc p) (by omega)
    rw [hp, overwrite_end] at a2
    have hp1 : s1.pos = s1.data.length := by rw [a3, a2, List.length_append, hp]
    obtain ⟨s2, b1, b2, b3, b4⟩ := ih (m ++ [(p, s.pos)]) s1 (a4.trans hs) hp1 (by omega)
    refine ⟨s2, ?_, by rw [b2, a2, List.flatMap_cons, List.append_assoc], b3, b4⟩
    have hstep : Mux.Context.step sinkOps (indexMuxer R order fuel) ⟨m, ⟨s, s.pos⟩, u⟩ (.packet p) =
        .ok (.ok (), ⟨m ++ [(p, s.pos)], ⟨s1, s1.pos⟩, u⟩) := by
      simp only [Mux.Context.step, Mux.Context.writePacket, indexMuxer, a1, ok_bind, pure_eq_ok, Writer.position]
    simp only [List.map_cons, Mux.Context.run, hstep, ok_bind, b1, pure_eq_ok, List.length_cons, List.replicate_succ]
    rw [a3, List.append_assoc]
    rfl

theorem index_muxed (R : Records) (order : Places → Places) (fuel : Nat) (s : Sink) (h0 : s.data = [] ∧ s.pos = 0)
    (hq : ∀ c, (s.script c).fail = none ∧ 0 < (s.script c).len) (ps : List Packet)
    (hf : (indexFile R order ps).length < fuel) :
    ∃ w, writeIndexed R order fuel s ps = .ok (List.replicate (ps.length + 2) (.ok ()), .ok (), w) ∧
      w.writer.data = indexFile R order ps := by
  simp only [indexFile, List.length_append, numBytes_length, List.length_cons, List.length_nil] at hf
  -- header
  have hnew : (Mux.Context.new [] (Mux.Writer.new s) : Mux.Context Places Sink) = ⟨[], ⟨s, s.pos⟩, none⟩ := by
    rw [h0.2]; rfl
  obtain ⟨s1, a1, a2, a3, a4⟩ := store_ok fuel s hq (toBe 8 (BitVec.ofNat 64 0)) (by rw [toBe_length]; omega)
  have a2 : s1.data = toBe 8 (BitVec.ofNat 64 0) := by
    have := overwrite_end [] (toBe 8 (BitVec.ofNat 64 0))
    rw [h0.1, h0.2] at a2
    exact a2.trans this
  have hp1 : s1.pos = s1.data.length := by rw [a3, a2, h0.2, Nat.zero_add]
  have hpos1 : s1.pos = 8 := by rw [a3, toBe_length, h0.2]
  have hhead : Mux.Context.step sinkOps (indexMuxer R order fuel) ⟨[], ⟨s, s.pos⟩, none⟩ .header =
      .ok (.ok (), ⟨[], ⟨s1, s1.pos⟩, none⟩) := by
    simp only [Mux.Context.step, Mux.Context.writeHeader, indexMuxer, number_ok, ok_bind, a1, pure_eq_ok]
  -- packets
  obtain ⟨s2, b1, b2, b3, b4⟩ := packets_run R order fuel none s.script hq ps [] s1 a4 hp1 (by omega)
  rw [List.nil_append, show placed R s1.pos ps = placed R 8 ps by rw [hpos1]] at b1
  have hq2 : ∀ c, (s2.script c).fail = none ∧ 0 < (s2.script c).len := by rw [b4]; exact hq
  -- trailer
  generalize hT : order (placed R 8 ps) = T at hf
  obtain ⟨s3, c1, c2, c3, c4⟩ := store_ok fuel s2 hq2 (numBytes ((T.map (·.2)).length :: T.map (·.2)))
    (by rw [numBytes_length, List.length_cons]; omega)
  rw [b3, overwrite_end] at c2
  have hq3 : ∀ c, (s3.script c).fail = none ∧ 0 < (s3.script c).len := by rw [c4]; exact hq2
  have hfl : Mux.Writer.flush sinkOps ⟨s3, s3.pos⟩ =
      .ok (.ok (), ⟨{ s3 with clock := s3.clock + 1, flushes := s3.flushes + 1 }, s3.pos⟩) := by
    simp [Mux.Writer.flush, sinkOps, Sink.flush, (hq3 _).1]
  have htrail : Mux.Context.writeTrailer sinkOps (indexMuxer R order fuel) ⟨placed R 8 ps, ⟨s2, s2.pos⟩, none⟩ =
      .ok (.ok (), ⟨placed R 8 ps, ⟨{ s3 with clock := s3.clock + 1, flushes := s3.flushes + 1 }, s3.pos⟩, none⟩) := by
    simp only [Mux.Context.writeTrailer, indexMuxer, hT, numbers_ok, ok_bind, c1, pure_eq_ok, hfl]
  have hseek : Writer.seek sinkOps ⟨{ s3 with clock := s3.clock + 1, flushes := s3.flushes + 1 }, s3.pos⟩ (.start 0) =
      .ok (.ok 0, ⟨{ s3 with pos := 0, clock := s3.clock + 2, flushes := s3.flushes + 1 }, 0⟩) := by
    simp [Writer.seek, sinkOps, Sink.seek, Sink.target, (hq3 _).1]
  obtain ⟨s4, d1, d2, d3, d4⟩ := store_ok fuel { s3 with pos := 0, clock := s3.clock + 2, flushes := s3.flushes + 1 } hq3
    (toBe 8 (BitVec.ofNat 64 s2.pos)) (by rw [toBe_length]; omega)
  refine ⟨⟨s4, s4.pos⟩, ?_, ?_⟩
  · rw [writeIndexed, hnew, Mux.Context.run, hhead]
    simp only [ok_bind, b1, pure_eq_ok, Mux.Writer.asRef, htrail, Mux.Context.intoWriter, hseek, number_ok]
    have d1' : store fuel ⟨{ s3 with pos := 0, clock := s3.clock + 2, flushes := s3.flushes + 1 }, 0⟩
      (toBe 8 (BitVec.ofNat 64 s2.pos)) = .ok (.ok (), ⟨s4, s4.pos⟩) := d1
    rw [d1']
    simp only [ok_bind]
    rw [show ps.length + 2 = (ps.length + 1) + 1 from rfl, List.replicate_succ', List.replicate_succ]
  · simp only
    rw [d2]
    simp only
    have e1 : s3.data = [] ++ toBe 8 (BitVec.ofNat 64 0) ++
        (ps.flatMap R.enc ++ numBytes ((T.map (·.2)).length :: T.map (·.2))) := by
      rw [c2, b2, a2]; simp
    have e3 := Mux.overwrite_inside [] (toBe 8 (BitVec.ofNat 64 0))
      (ps.flatMap R.enc ++ numBytes ((T.map (·.2)).length :: T.map (·.2))) (toBe 8 (BitVec.ofNat 64 s2.pos))
      (by rw [toBe_length, toBe_length])
    rw [e1]
    refine Eq.trans e3 ?_
    have e2 : s2.pos = 8 + (ps.flatMap R.enc).length := by rw [b3, b2, a2, List.length_append, toBe_length]
    rw [indexFile, hT, e2, List.nil_append, List.append_assoc, List.length_map]
    simp [numBytes]

/-! ### what the demuxer finds -/

theorem placed_at (R : Records) : ∀ (ps : List Packet) (at_ : Nat) (before after : List U8), before.length = at_ →
    ∀ p q, (p, q) ∈ placed R at_ ps → p ∈ ps ∧ q ≤ at_ + (ps.flatMap R.enc).length ∧
      ∃ rest, (before ++ ps.flatMap R.enc ++ after).drop q = R.enc p ++ rest := by
  intro ps
  induction ps with
  | nil => intro _ _ _ _ p q h; cases h
  | cons a ps ih =>
    intro at_ before after hb p q h
    rw [placed, List.mem_cons] at h
    rw [List.flatMap_cons]
    rcases h with h | h
    · cases h
      refine ⟨by simp, by omega, (ps.flatMap R.enc ++ after), ?_⟩
      rw [List.append_assoc, ← hb, List.drop_left, List.append_assoc]
    · obtain ⟨h1, h2, h3⟩ := ih (at_ + (R.enc a).length) (before ++ R.enc a) after (by rw [List.length_append, hb]) p q h
      refine ⟨by simp [h1], by rw [List.length_append]; omega, ?_⟩
      rw [← List.append_assoc before]
      exact h3

theorem goal_toNext (len p : Nat) (qs : List Nat) : goal len p (toNext qs) = some (qs.head?.getD len) := by
  cases qs with
  | nil => simp [toNext, goal]
  | cons q qs => rfl

/-- Visiting the places. -/
theorem visits (R : Records) (wire : Packet → Packet) (good : Packet → Prop) (hR : R.Undone wire good) (info : GlobalInfo)
    (dat : List U8) (f k : Nat) (streams : List Stream) : ∀ T : Places,
    (∀ p q, (p, q) ∈ T → good p ∧ ∃ rest, dat.drop q = R.enc p ++ rest) →
    (indexFormat R info).events dat (f + 1) (T.length + k) (some (T.map (·.2)).tail) streams ((T.map (·.2)).head?.getD dat.length) =
      some (T.map (fun x => .ok (completed streams (.NewPacket (wire x.1)))) ++ List.replicate k (.ok .Eof)) := by
  intro T
  induction T with
  | nil =>
    intro _
    have hnone : (indexFormat R info).parse (some []) (dat.drop dat.length) = none := by
      rw [List.drop_length]
      simp [indexFormat, hR.empty]
    simp only [List.length_nil, Nat.zero_add, List.map_nil, List.tail_nil, List.head?_nil, Option.getD_none, List.nil_append]
    induction k with
    | zero => rfl
    | succ k ih =>
      rw [Jumping.events, Jumping.next, hnone]
      simp only [Option.bind_eq_bind, Option.bind_some]
      rw [show announced (.ok Event.Eof) = [] from rfl, List.append_nil, ih]
      rfl
  | cons x T ih =>
    intro hT
    obtain ⟨p, q⟩ := x
    obtain ⟨hg, rest, hd⟩ := hT p q (by simp)
    have hp : (indexFormat R info).parse (some (T.map (·.2))) (dat.drop q) =
        some (toNext (T.map (·.2)), some (.NewPacket (wire p)), some (T.map (·.2)).tail) := by
      rw [hd]
      simp only [indexFormat, hR.stable _ rest _ (hR.enc p hg)]
      rfl
    rw [List.length_cons, show T.length + 1 + k = (T.length + k) + 1 by omega]
    simp only [List.map_cons, List.tail_cons, List.head?_cons, Option.getD_some]
    rw [Jumping.events, Jumping.next, hp]
    simp only [goal_toNext, Option.bind_eq_bind, Option.bind_some]
    rw [show announced (.ok (Event.NewPacket (wire p))) = [] from rfl, List.append_nil, ih (fun p q h => hT p q (by simp [h]))]
    rfl

theorem next_enough (J : Jumping D) (dat : List U8) (f : Nat) (d : D) (p : Nat) (x) (h : J.next dat f d p = some x) :
    J.next dat (f + 1) d p = some x := by
  induction f generalizing d p with
  | zero => cases h
  | succ f ih =>
    rw [Jumping.next] at h ⊢
    cases hp : J.parse d (dat.drop p) with
    | none => rw [hp] at h; exact h
    | some v =>
      obtain ⟨sf, ev, d'⟩ := v
      rw [hp] at h
      simp only at h ⊢
      cases hg : goal dat.length p sf with
      | none => rw [hg] at h; exact h
      | some q =>
        rw [hg] at h
        cases ev with
        | some ev => exact h
        | none => exact ih _ _ h

/-- A jump before the first event. -/
theorem events_jump (J : Jumping D) (dat : List U8) (f n : Nat) (d d' : D) (streams : List Stream) (p q : Nat) (sf : SeekFrom)
    (hp : J.parse d (dat.drop p) = some (sf, none, d')) (hg : goal dat.length p sf = some q) (xs)
    (h : J.events dat f n d' streams q = some xs) : J.events dat (f + 1) n d streams p = some xs := by
  have more : ∀ (n : Nat) (d : D) (streams : List Stream) (p : Nat) (xs), J.events dat f n d streams p = some xs →
      J.events dat (f + 1) n d streams p = some xs := by
    intro n
    induction n with
    | zero => intro _ _ _ xs h; exact h
    | succ n ih =>
      intro d streams p xs h
      rw [Jumping.events] at h ⊢
      cases h1 : J.next dat f d p with
      | none => rw [h1] at h; cases h
      | some v =>
        obtain ⟨x, d1, p1⟩ := v
        rw [h1] at h
        rw [next_enough J dat f d p _ h1]
        simp only [Option.bind_eq_bind, Option.bind_some] at h ⊢
        cases h2 : J.events dat f n d1 (streams ++ announced x) p1 with
        | none => rw [h2] at h; cases h
        | some ys => rw [h2] at h; rw [ih _ _ _ _ h2]; exact h
  cases n with
  | zero => exact h
  | succ n =>
    rw [Jumping.events] at h ⊢
    have hn : J.next dat (f + 1) d p = J.next dat f d' q := by
      rw [Jumping.next, hp]
      simp only [hg]
    rw [hn]
    cases h1 : J.next dat f d' q with
    | none => rw [h1] at h; cases h
    | some v =>
      obtain ⟨x, d1, p1⟩ := v
      rw [h1] at h
      simp only [Option.bind_eq_bind, Option.bind_some] at h ⊢
      cases h2 : J.events dat f n d1 (streams ++ announced x) p1 with
      | none => rw [h2] at h; cases h
      | some ys => rw [h2] at h; rw [more _ _ _ _ _ h2]; exact h

/-- C154. Any packets are written to an empty file, with any muxer of this kind, through a `Writer` over a sink that takes any
few bytes at a time; the file is demuxed through an `AccReader` of any capacity over a reader that gives any few bytes at a
time. Then all calls succeed, and `read_event` returns the packets that the table names, in its order, as far as their format
keeps them and with the timebase of their streams, and then `Eof`. -/
theorem c154_roundtrip (R : Records) (wire : Packet → Packet) (good : Packet → Prop) (hR : R.Undone wire good)
    (info : GlobalInfo) (order : Places → Places) (ho : ∀ l, ∀ x ∈ order l, x ∈ l) (ps : List Packet) (hg : ∀ p ∈ ps, good p)
    (sink : Sink) (h0 : sink.data = [] ∧ sink.pos = 0)
    (hq : ∀ c, (sink.script c).fail = none ∧ 0 < (sink.script c).len) (fuel : Nat)
    (hfuel : (indexFile R order ps).length < fuel) (h64 : (indexFile R order ps).length < 2 ^ 64)
    (acts : Nat → Act) (ha : ∀ c, (acts c).fail = none) (cap k : Nat) :
    ∃ w, writeIndexed R order fuel sink ps = .ok (List.replicate (ps.length + 2) (.ok ()), .ok (), w) ∧
      ∀ file, w.writer.data = file →
      ∃ c1 c2, readHeaders (indexFormat R info).demuxer accBuffered (file.length + 2)
          (Context.new none (Acc.withCapacity cap ⟨file, 0, acts, 0⟩)) = .ok (.ok (), c1) ∧ c1.info = info ∧
        readEvents (indexFormat R info).demuxer accBuffered (2 * (file.length + 1)) ((order (placed R 8 ps)).length + k) c1 =
          .ok ((order (placed R 8 ps)).map (fun x => .ok (completed info.streams (.NewPacket (wire x.1)))) ++
            List.replicate k (.ok .Eof), c2) := by
  obtain ⟨c, hc, hb⟩ := index_muxed R order fuel sink h0 hq ps hfuel
  refine ⟨c, hc, ?_⟩
  intro file hfile
  rw [hb] at hfile
  subst hfile
  have hlen := h64
  simp only [indexFile, List.length_append, numBytes_length, List.length_cons, List.length_nil] at hlen
  generalize hT : order (placed R 8 ps) = T at hlen ⊢
  rw [List.length_map] at hlen
  have hfile : indexFile R order ps = numBytes [8 + (ps.flatMap R.enc).length] ++ ps.flatMap R.enc ++
      numBytes (T.length :: T.map (·.2)) := by rw [indexFile, hT]
  have hhead : (indexFormat R info).head none ⟨none, none, []⟩ (indexFile R order ps) =
      some (.start (8 + (ps.flatMap R.enc).length), none, info) := by
    have : numberOf (indexFile R order ps) = some (8 + (ps.flatMap R.enc).length) := by
      rw [hfile, List.append_assoc]
      have e : numBytes [8 + (ps.flatMap R.enc).length] = toBe 8 (BitVec.ofNat 64 (8 + (ps.flatMap R.enc).length)) := by
        simp [numBytes]
      rw [e, numberOf_toBe _ (by omega)]
    simp only [indexFormat, this, Option.map_some]
  have hplaces : ∀ p q, (p, q) ∈ T → good p ∧ ∃ rest, (indexFile R order ps).drop q = R.enc p ++ rest := by
    intro p q h
    obtain ⟨h1, _, h3⟩ := placed_at R ps 8 (numBytes [8 + (ps.flatMap R.enc).length]) (numBytes (T.length :: T.map (·.2)))
      (by rw [numBytes_length]; rfl) p q (ho _ _ (hT ▸ h))
    exact ⟨hg p h1, hfile ▸ h3⟩
  have hbound : ∀ q ∈ T.map (·.2), q < 2 ^ 64 := by
    intro q h
    obtain ⟨⟨p, q'⟩, h1, rfl⟩ := List.mem_map.1 h
    obtain ⟨_, h2, _⟩ := placed_at R ps 8 (numBytes [8 + (ps.flatMap R.enc).length]) []
      (by rw [numBytes_length]; rfl) p q' (ho _ _ (hT ▸ h1))
    simp only
    omega
  -- the table
  have htable : (indexFormat R info).parse none ((indexFile R order ps).drop (8 + (ps.flatMap R.enc).length)) =
      some (toNext (T.map (·.2)), none, some (T.map (·.2)).tail) := by
    have e : (indexFile R order ps).drop (8 + (ps.flatMap R.enc).length) =
        toBe 8 (BitVec.ofNat 64 T.length) ++ (numBytes (T.map (·.2)) ++ []) := by
      have := List.drop_left (l₁ := numBytes [8 + (ps.flatMap R.enc).length] ++ ps.flatMap R.enc)
        (l₂ := numBytes (T.length :: T.map (·.2)))
      rw [List.length_append, numBytes_length] at this
      rw [hfile]
      refine Eq.trans this ?_
      simp [numBytes]
    rw [e]
    simp only [indexFormat]
    rw [numberOf_toBe _ (by omega), List.drop_append_of_le_length (by rw [toBe_length]; omega),
      List.drop_eq_nil_of_le (by rw [toBe_length]; omega), List.nil_append]
    simp only [Option.bind_eq_bind, Option.bind_some]
    have := numbersOf_ok (T.map (·.2)) hbound []
    rw [List.length_map] at this
    rw [this]
    rfl
  have hev := visits R wire good hR info (indexFile R order ps) 0 k info.streams T hplaces
  have hev2 := events_jump (indexFormat R info) (indexFile R order ps) 1 (T.length + k) none _ info.streams
    (8 + (ps.flatMap R.enc).length) _ _ htable (goal_toNext _ _ _) _ hev
  obtain ⟨c1, c2, a1, a2, a3⟩ := c152_file_partial (indexFormat R info) (index_framed R wire good hR info)
    (index_noStepsBack R info) (indexFile R order ps) cap ⟨indexFile R order ps, 0, acts, 0⟩ rfl rfl ha none none _ info hhead
    2 (T.length + k) _ (by simp only [goal, Option.getD_some]; exact hev2)
  exact ⟨c1, c2, a1, a2, a3⟩

/-! ### a format -/

/-- Packets with their length in a byte before them. -/
def prefixed : Records where
  enc p := BitVec.ofNat 8 p.data.length :: p.data
  dec
    | [] => none
    | n :: w => if n.toNat ≤ w.length then some { Packet.new with data := w.take n.toNat, stream_index := 0 } else none
  need
    | [] => 1
    | n :: _ => 1 + n.toNat

theorem prefixed_undone : prefixed.Undone (fun p => { Packet.new with data := p.data, stream_index := 0 })
    (fun p => p.data.length < 256) where
  enc p h := by
    simp only [prefixed, BitVec.toNat_ofNat]
    rw [Nat.mod_eq_of_lt h, if_pos (Nat.le_refl _), List.take_length]
  stable w u p h := by
    cases w with
    | nil => cases h
    | cons n w =>
      simp only [prefixed, List.cons_append] at h ⊢
      split at h
      · next hn =>
        rw [if_pos (by rw [List.length_append]; omega), List.take_append_of_le_length hn]
        exact h
      · cases h
  need w h := by
    cases w with
    | nil => exact Nat.one_pos
    | cons n w =>
      simp only [prefixed] at h ⊢
      split at h
      · cases h
      · rw [List.length_cons]; omega
  empty := rfl

/-- The packets backwards, without the first. -/
def lastFirst (l : Places) : Places := l.tail.reverse

/-- C154 on three packets of which a table has two, the last first. -/
example : (∀ l, ∀ x ∈ lastFirst l, x ∈ l) ∧
    (match writeIndexed prefixed lastFirst 99 ⟨[], 0, fun k => ⟨none, 1 + k % 2⟩, 0, 0⟩
        [{ Packet.new with data := [7, 8, 9] }, { Packet.new with data := [6] }, { Packet.new with data := [4, 5] }] with
      | .ok (_, _, w) => decide (w.writer.data = [0, 0, 0, 0, 0, 0, 0, 17, 3, 7, 8, 9, 1, 6, 2, 4, 5,
            0, 0, 0, 0, 0, 0, 0, 2, 0, 0, 0, 0, 0, 0, 0, 14, 0, 0, 0, 0, 0, 0, 0, 12]) &&
        (match readHeaders (indexFormat prefixed ⟨none, none, []⟩).demuxer accBuffered 99
            (Context.new none (Acc.withCapacity 1 ⟨w.writer.data, 0, fun k => ⟨none, 1 + k % 2⟩, 0⟩)) with
        | .ok (.ok (), c1) => (match readEvents (indexFormat prefixed ⟨none, none, []⟩).demuxer accBuffered 99 3 c1 with
          | .ok (xs, _) => decide (xs.map payload = [[4, 5], [6], []])
          | _ => false)
        | _ => false)
      | _ => false) = true :=
  ⟨fun l x h => List.mem_of_mem_tail (List.mem_reverse.1 h), by decide +kernel⟩

/-- C154: with the table in the order of writing these are all packets in order. -/
theorem c154_in_order (R : Records) (wire : Packet → Packet) (streams : List Stream) (ps : List Packet) (at_ : Nat) :
    (placed R at_ ps).map (fun x => (Except.ok (completed streams (.NewPacket (wire x.1))) : Except Err Event)) =
      ps.map (fun p => .ok (completed streams (.NewPacket (wire p)))) := by
  induction ps generalizing at_ with
  | nil => rfl
  | cons p ps ih => rw [placed, List.map_cons, List.map_cons, ih]

example : (placed prefixed 8 [{ Packet.new with data := [7, 8, 9] }, { Packet.new with data := [6] }]).map (·.2) = [8, 12] := by
  decide +kernel

end Verif.RoundTrip
