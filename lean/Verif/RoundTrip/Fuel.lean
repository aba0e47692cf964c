import Verif.RoundTrip.Damaged

/-!
# The bounds on the loops of a converter do not matter

The model gives every loop a number of rounds (`Panic.fuel` if they do not suffice). A run that has ended is the same with any larger
numbers; so what C180 to C183 say about one run with some numbers they say about the program.
-/

namespace Verif.RoundTrip
open Verif Verif.Io Verif.Frame Verif.Stream Verif.Packet Verif.Demux Verif.Codec

variable {M W D R E C A B : Type}

/-- If the first has ended, the second is the same. -/
def Ends (x y : Rust A) : Prop := x ≠ .error .fuel → y = x

theorem Ends.refl (x : Rust A) : Ends x x := fun _ => rfl

theorem Ends.out (y : Rust A) : Ends (.error .fuel) y := fun h => absurd rfl h

theorem Ends.bind {x y : Rust A} {f g : A → Rust B} (h : Ends x y) (hf : ∀ v, Ends (f v) (g v)) : Ends (x >>= f) (y >>= g) := by
  intro hn
  have hx : x ≠ .error .fuel := fun e => hn (by rw [e]; rfl)
  rw [h hx]
  cases x with
  | error p => rfl
  | ok v => exact hf v hn

section
variable {dc : Decoder C} {ec : Encoder E} {so : Mux.SinkOps W} {mx : Mux.Muxer M W} {dm : Demuxer D R} {bf : Buffered R}

theorem drainFrames_ends : ∀ {k k' : Nat}, k ≤ k' → ∀ cd, Ends (drainFrames dc k cd) (drainFrames dc k' cd)
  | 0, _, _ => fun _ => .out _
  | k + 1, 0, h => absurd h (by omega)
  | k + 1, k' + 1, h => by
    intro cd
    simp only [drainFrames]
    refine (Ends.refl _).bind ?_
    rintro ⟨x, cd1⟩
    cases x with
    | ok f => exact (drainFrames_ends (by omega) cd1).bind fun v => .refl _
    | error e => cases e <;> exact .refl _

theorem drainPackets_ends : ∀ {k k' : Nat}, k ≤ k' → ∀ ce cm, Ends (drainPackets ec mx k ce cm) (drainPackets ec mx k' ce cm)
  | 0, _, _ => fun _ _ => .out _
  | k + 1, 0, h => absurd h (by omega)
  | k + 1, k' + 1, h => by
    intro ce cm
    simp only [drainPackets]
    refine (Ends.refl _).bind ?_
    rintro ⟨x, ce1⟩
    cases x with
    | ok p =>
      refine (Ends.refl _).bind ?_
      rintro ⟨y, cm1⟩
      cases y with
      | ok u => exact drainPackets_ends (by omega) ce1 cm1
      | error e => exact .refl _
    | error e => cases e <;> exact .refl _

theorem encodeSome_ends {k k' : Nat} (h : k ≤ k') (fs : List Frame) : ∀ ce cm, Ends (encodeSome ec mx k fs ce cm)
    (encodeSome ec mx k' fs ce cm) := by
  induction fs with
  | nil => exact fun ce cm => .refl _
  | cons f fs ih =>
    intro ce cm
    simp only [encodeSome]
    refine (Ends.refl _).bind ?_
    rintro ⟨x, ce1⟩
    cases x with
    | error e => exact .refl _
    | ok u =>
      refine (drainPackets_ends h ce1 cm).bind ?_
      rintro ⟨y, ce2, cm2⟩
      cases y with
      | error e => exact .refl _
      | ok u => exact ih _ _

theorem Track.packet_ends {k k' : Nat} (h : k ≤ k') (i : Nat) (tr : Track C E) (q : Packet) (cm : Mux.Context M W) :
    Ends (tr.packet dc ec mx k i q cm) (tr.packet dc ec mx k' i q cm) := by
  cases tr with
  | drop => exact .refl _
  | copy => exact .refl _
  | code cd ce =>
    simp only [Track.packet]
    refine (Ends.refl _).bind ?_
    rintro ⟨x, cd1⟩
    cases x with
    | error e => exact .refl _
    | ok u =>
      refine (drainFrames_ends h cd1).bind ?_
      rintro ⟨y, cd2⟩
      cases y with
      | error e => exact .refl _
      | ok fs => exact (encodeSome_ends h fs ce cm).bind fun v => .refl _

theorem Track.finish_ends {k k' : Nat} (h : k ≤ k') (i : Nat) (tr : Track C E) (cm : Mux.Context M W) :
    Ends (tr.finish dc ec mx k i cm) (tr.finish dc ec mx k' i cm) := by
  cases tr with
  | drop => exact .refl _
  | copy => exact .refl _
  | code cd ce =>
    simp only [Track.finish]
    refine (Ends.refl _).bind ?_
    rintro ⟨x, cd1⟩
    cases x with
    | error e => exact .refl _
    | ok u =>
      refine (drainFrames_ends h cd1).bind ?_
      rintro ⟨y, cd2⟩
      cases y with
      | error e => exact .refl _
      | ok fs =>
        refine (encodeSome_ends h fs ce cm).bind ?_
        rintro ⟨y, ce1, cm1⟩
        cases y with
        | error e => exact .refl _
        | ok u =>
          refine (Ends.refl _).bind ?_
          rintro ⟨z, ce2⟩
          cases z with
          | error e => exact .refl _
          | ok u => exact (drainPackets_ends h ce2 cm1).bind fun v => .refl _

theorem finishTracks_ends {k k' : Nat} (h : k ≤ k') (trs : List (Track C E)) : ∀ i cm,
    Ends (finishTracks dc ec mx k i trs cm) (finishTracks dc ec mx k' i trs cm) := by
  induction trs with
  | nil => exact fun i cm => .refl _
  | cons tr trs ih =>
    intro i cm
    simp only [finishTracks]
    refine (tr.finish_ends h i cm).bind ?_
    rintro ⟨y, tr1, cm1⟩
    cases y with
    | error e => exact .refl _
    | ok u => exact (ih _ _).bind fun v => .refl _

theorem readEvent_ends : ∀ {f f' : Nat}, f ≤ f' → ∀ c, Ends (readEvent dm bf f c) (readEvent dm bf f' c)
  | 0, _, _ => fun _ => .out _
  | f + 1, 0, h => absurd h (by omega)
  | f + 1, f' + 1, h => by
    intro c
    simp only [readEvent]
    refine (Ends.refl _).bind ?_
    rintro ⟨x, c1⟩
    cases x with
    | ok ev => exact .refl _
    | error e =>
      cases e with
      | MoreDataNeeded n =>
        simp only
        refine (Ends.refl _).bind fun l => ?_
        split
        · exact readEvent_ends (by omega) c1
        · refine (Ends.refl _).bind fun r => ?_
          refine (Ends.refl _).bind ?_
          rintro ⟨y, r1⟩
          cases y with
          | error e => exact .refl _
          | ok z =>
            simp only
            refine (Ends.refl _).bind fun l' => ?_
            split
            · exact .refl _
            · exact readEvent_ends (by omega) _
      | _ => exact .refl _

theorem readHeaders_ends : ∀ {f f' : Nat}, f ≤ f' → ∀ c, Ends (readHeaders dm bf f c) (readHeaders dm bf f' c)
  | 0, _, _ => fun _ => .out _
  | f + 1, 0, h => absurd h (by omega)
  | f + 1, f' + 1, h => by
    intro c
    simp only [readHeaders]
    refine (Ends.refl _).bind ?_
    rintro ⟨x, r⟩
    cases x with
    | error e => exact .refl _
    | ok z =>
      simp only
      refine (Ends.refl _).bind ?_
      rintro ⟨y, c1⟩
      cases y with
      | ok u => exact .refl _
      | error e =>
        cases e with
        | MoreDataNeeded n => exact (Ends.refl _).bind fun r => readHeaders_ends (by omega) _
        | _ => exact .refl _

theorem convertAll_ends {f f' k k' : Nat} (hf : f ≤ f') (hk : k ≤ k') : ∀ {n n' : Nat}, n ≤ n' → ∀ (trs : List (Track C E)) c cm,
    Ends (convertAll dc dm bf f k ec so mx n trs c cm) (convertAll dc dm bf f' k' ec so mx n' trs c cm)
  | 0, _, _ => fun _ _ _ => .out _
  | n + 1, 0, h => absurd h (by omega)
  | n + 1, n' + 1, h => by
    intro trs c cm
    simp only [convertAll]
    refine (readEvent_ends hf c).bind ?_
    rintro ⟨x, c1⟩
    cases x with
    | error e => exact .refl _
    | ok y =>
      cases y with
      | NewPacket p =>
        simp only
        cases (if p.stream_index < 0 then none else trs[p.stream_index.toNat]?) with
        | none => exact convertAll_ends hf hk (by omega) _ _ _
        | some tr =>
          refine (tr.packet_ends hk _ p cm).bind ?_
          rintro ⟨z, tr1, cm1⟩
          cases z with
          | error e => exact .refl _
          | ok u => exact convertAll_ends hf hk (by omega) _ _ _
      | Eof => exact (finishTracks_ends hk trs 0 cm).bind fun v => .refl _
      | _ => exact convertAll_ends hf hk (by omega) _ _ _

/-- **C183** If the program has ended within some numbers of rounds of its loops, panicking or not, then it ends in the same way with
any larger numbers. -/
theorem c183_rounds {dreg : Codecs C} {ereg : Codecs E} {f f' k k' n n' : Nat} (hf : f ≤ f') (hk : k ≤ k') (hn : n ≤ n')
    (plans : List Plan) (c : Context D R) (cm : Mux.Context M W)
    (h : convertFile dc dreg dm bf f k ec ereg so mx n plans c cm ≠ .error .fuel) :
    convertFile dc dreg dm bf f' k' ec ereg so mx n' plans c cm = convertFile dc dreg dm bf f k ec ereg so mx n plans c cm := by
  revert h
  change Ends _ _
  simp only [convertFile]
  refine (readHeaders_ends hf c).bind ?_
  rintro ⟨x, c1⟩
  cases x with
  | error e => exact .refl _
  | ok u =>
    refine (Ends.refl _).bind ?_
    rintro (e | trs)
    · exact .refl _
    · refine (Ends.refl _).bind ?_
      rintro ⟨z, cm1⟩
      cases z with
      | error e => exact .refl _
      | ok u => exact convertAll_ends hf hk hn _ _ _
end

/-- **C183** So two runs that have ended have ended in the same way, whatever the numbers. -/
theorem c183_one {dc : Decoder C} {dreg : Codecs C} {dm : Demuxer D R} {bf : Buffered R} {ec : Encoder E} {ereg : Codecs E}
    {so : Mux.SinkOps W} {mx : Mux.Muxer M W} {f f' k k' n n' : Nat} (plans : List Plan) (c : Context D R) (cm : Mux.Context M W)
    (h : convertFile dc dreg dm bf f k ec ereg so mx n plans c cm ≠ .error .fuel)
    (h' : convertFile dc dreg dm bf f' k' ec ereg so mx n' plans c cm ≠ .error .fuel) :
    convertFile dc dreg dm bf f k ec ereg so mx n plans c cm = convertFile dc dreg dm bf f' k' ec ereg so mx n' plans c cm :=
  (c183_rounds (Nat.le_max_left f f') (Nat.le_max_left k k') (Nat.le_max_left n n') plans c cm h).symm.trans
    (c183_rounds (Nat.le_max_right f f') (Nat.le_max_right k k') (Nat.le_max_right n n') plans c cm h')

/-- A run that has ended, and one that has not, for want of rounds. -/
example : (match convertFile twoDecoder (Codecs.fromList twoDecoders) twoFormat.demuxer accBuffered 40 9 twoEncoder
      (Codecs.fromList twoEncoders) Mux.sinkOps (Mux.bytesMuxer 40 avHdr twoPkt avTrl) 9 [.copy, .code "pair"]
      (Context.new () (Acc.withCapacity 1 ⟨twoFile, 0, sampleActs, 0⟩)) (Mux.Context.new 0 (Mux.Writer.new ⟨[], 0, fun k => ⟨none, 1 + k % 2⟩, 0, 0⟩)) with
    | .error .fuel => false
    | _ => true) = true ∧
    (match convertFile twoDecoder (Codecs.fromList twoDecoders) twoFormat.demuxer accBuffered 40 9 twoEncoder
      (Codecs.fromList twoEncoders) Mux.sinkOps (Mux.bytesMuxer 40 avHdr twoPkt avTrl) 3 [.copy, .code "pair"]
      (Context.new () (Acc.withCapacity 1 ⟨twoFile, 0, sampleActs, 0⟩)) (Mux.Context.new 0 (Mux.Writer.new ⟨[], 0, fun k => ⟨none, 1 + k % 2⟩, 0, 0⟩)) with
    | .error .fuel => true
    | _ => false) = true := by
  refine ⟨?_, ?_⟩ <;> decide +kernel

end Verif.RoundTrip
