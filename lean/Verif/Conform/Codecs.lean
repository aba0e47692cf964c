import Verif.Codec.Props

/-!
# C175: the codecs of the library's own tests

The only implementations of `Encoder` and `Decoder` in the repository are those of the `#[test]` modules. They are what
somebody who writes a codec starts from.

What the calls should give is said by looking back through the calls made before, without a state.
-/

namespace Verif.Conform
open Verif Verif.Data Verif.Frame Verif.Packet Verif.Stream Verif.Value Verif.Codec

/-! ### the encoder, encoder.rs:161-285 -/

/-- encoder.rs:170-175 -/
structure DummyEnc where
  state : Nat
  w : Option Nat
  h : Option Nat
  format : Option Pixel.Formaton

/-- `Option::unwrap` (encoder.rs:251-252) -/
def unwrapped {α : Type} : Option α → Rust α
  | some a => .ok a
  | none => .error .unwrap

namespace DummyEnc

/-- encoder.rs:206-208; `as u8` keeps the low byte -/
def getExtradata (e : DummyEnc) : Option (List U8) := some [BitVec.ofNat 8 e.state]

/-- encoder.rs:220-229; `usize` has 64 bits, so the cast of a `u64` keeps its value -/
def setOption (e : DummyEnc) (key : String) (val : Value) : Except Err Unit × DummyEnc :=
  match key, val with
  | "w", .U64 v => (.ok (), { e with w := some v.toNat })
  | "h", .U64 v => (.ok (), { e with h := some v.toNat })
  | "format", .Formaton f => (.ok (), { e with format := some f })
  | _, _ => (.error (.Unsupported (key ++ " key")), e)

/-- encoder.rs:231-240 -/
def setParams (e : DummyEnc) (params : CodecParams) : DummyEnc :=
  match params.kind with
  | some (.Video info) => { e with w := some info.width, h := some info.height, format := info.format }
  | _ => e

/-- encoder.rs:242-261 -/
def getParams (e : DummyEnc) : Rust (Except Err CodecParams) :=
  if e.w.isNone || e.w.isNone || e.format.isNone then .ok (.error .ConfigurationIncomplete)
  else do
    let height ← unwrapped e.w
    let width ← unwrapped e.h
    return .ok { kind := some (.Video ⟨width, height, e.format⟩), codec_id := some "dummy", extradata := e.getExtradata,
                 bit_rate := 0, convergence_window := 0, delay := 0 }

end DummyEnc

/-- encoder.rs:198-266 -/
def dummyEncoder : Encoder DummyEnc where
  getExtradata := fun e => .ok e.getExtradata
  sendFrame := fun e _ => do return (.ok (), { e with state := ← uadd e.state 1 })
  receivePacket := fun e =>
    let p := withCapacity 1
    .ok (.ok { p with data := p.data ++ [BitVec.ofNat 8 e.state] }, e)
  flush := fun e => .ok (.ok (), e)
  configure := fun e =>
    .ok (if e.h.isSome && e.w.isSome && e.format.isSome then .ok () else .error .ConfigurationIncomplete, e)
  setOption := fun e k v => .ok (e.setOption k v)
  setParams := fun e p => .ok (.ok (), e.setParams p)
  getParams := fun e => e.getParams

/-- encoder.rs:184-191 and 268-275 -/
def dummyEncDescr : Descriptor DummyEnc where
  create := ⟨0, none, none, none⟩
  describe := ⟨"dummy", "dummy", "Dummy encoder", "x-application/dummy"⟩

/-- A history of calls of an encoder made by name from the list of the test (encoder.rs:282), with what they return. -/
def encode (ops : List EncOp) : Rust (List EncOut) := do
  match ← EncContext.byName (Codecs.fromList [dummyEncDescr]) "dummy" with
  | none => .error .unwrap
  | some c => do
    let (outs, _) ← c.run dummyEncoder ops
    return outs

/-! ### the decoder, decoder.rs:126-192 -/

/-- decoder.rs:133-135 -/
structure DummyDec where
  state : Nat

/-- decoder.rs:153-174 -/
def dummyDecoder : Decoder DummyDec where
  setExtradata := fun _ extra => .ok ⟨if extra.length > 4 then 42 else 12⟩
  sendPacket := fun d _ => do return (.ok (), ⟨← uadd d.state 1⟩)
  receiveFrame := fun _ => .error .unimplemented
  configure := fun d => .ok (.ok (), d)
  flush := fun d => .ok (.ok (), d)

/-- decoder.rs:144-146 and 176-183 -/
def dummyDecDescr : Descriptor DummyDec where
  create := ⟨0⟩
  describe := ⟨"dummy", "dummy", "Dummy decoder", "x-application/dummy"⟩

/-- A history of calls of a decoder made by name from the list of the test (decoder.rs:189), with what they return and
the decoder afterwards. -/
def decode (ops : List DecOp) : Rust (List DecOut × DummyDec) := do
  match ← DecContext.byName (Codecs.fromList [dummyDecDescr]) "dummy" with
  | none => .error .unwrap
  | some c => do
    let (outs, c) ← c.run dummyDecoder ops
    return (outs, c.decoder)

/-- lookup, decoder.rs:188-192 and encoder.rs:281-285 -/
example : (decode []).toOption.isSome ∧ (encode []).toOption.isSome := by decide +kernel

/-! ### specification -/

/-- The newest call that says something. -/
def newest {ω α : Type} (says : ω → Option α) (before : List ω) : Option α := before.reverse.findSome? says

/-- The width that a call gives. -/
def widthIn : EncOp → Option Nat
  | .option k v => if k = "w" then (match v.into with | .U64 v => some v.toNat | _ => none) else none
  | .setParams p => (match p.kind with | some (.Video info) => some info.width | _ => none)
  | _ => none

/-- The height that a call gives. -/
def heightIn : EncOp → Option Nat
  | .option k v => if k = "h" then (match v.into with | .U64 v => some v.toNat | _ => none) else none
  | .setParams p => (match p.kind with | some (.Video info) => some info.height | _ => none)
  | _ => none

/-- The format that a call gives; parameters may give that there is none. -/
def formatIn : EncOp → Option (Option Pixel.Formaton)
  | .option k v => if k = "format" then (match v.into with | .Formaton f => some (some f) | _ => none) else none
  | .setParams p => (match p.kind with | some (.Video info) => some info.format | _ => none)
  | _ => none

/-- The video that the calls so far describe, if they do so completely. -/
def described (before : List EncOp) : Option Stream.VideoInfo :=
  match newest widthIn before, newest heightIn before, newest formatIn before with
  | some w, some h, some (some f) => some ⟨w, h, some f⟩
  | _, _, _ => none

/-- The calls that send a frame. -/
def EncOp.isSend : EncOp → Bool
  | .send _ => true
  | _ => false

/-- The number of frames sent, as a byte. -/
def sentByte (before : List EncOp) : U8 := BitVec.ofNat 8 (before.countP EncOp.isSend)

/-- The parameters of a video. -/
def paramsOf (before : List EncOp) (info : Stream.VideoInfo) : CodecParams :=
  ⟨some (.Video info), some "dummy", some [sentByte before], 0, 0, 0⟩

/-- What a call should give after those before it. -/
def answer (before : List EncOp) : EncOp → EncOut
  | .configure => .unit (if (described before).isSome then .ok () else .error .ConfigurationIncomplete)
  | .setParams _ => .unit (.ok ())
  | .getParams => .params (match described before with
      | some info => .ok (paramsOf before info)
      | none => .error .ConfigurationIncomplete)
  | .option k v =>
    .unit (if (widthIn (.option k v)).isSome || (heightIn (.option k v)).isSome || (formatIn (.option k v)).isSome
      then .ok () else .error (.Unsupported (k ++ " key")))
  | .extradata => .extradata (some [sentByte before])
  | .send _ => .unit (.ok ())
  | .receive => .packet (.ok { Packet.new with data := [sentByte before] })
  | .flush => .unit (.ok ())

/-- What all calls of a history should give. -/
def answers (ops : List EncOp) : List EncOut :=
  ops.mapIdx fun i op => answer (ops.take i) op

/-- **C175** as it should be. -/
def C175 : Prop := ∀ ops : List EncOp, ops.countP EncOp.isSend < 2 ^ 64 → encode ops = .ok (answers ops)

/-- No call of `get_params` comes when the width and the format are known and the height is not, or is another than the
width. -/
def Square (ops : List EncOp) : Prop :=
  ∀ i w f, ops[i]? = some .getParams → newest widthIn (ops.take i) = some w →
    newest formatIn (ops.take i) = some (some f) → newest heightIn (ops.take i) = some w

/-- What a call of `get_params` gives. -/
def paramsGiven (before : List EncOp) : Rust EncOut :=
  match newest widthIn before, newest heightIn before, newest formatIn before with
  | some w, some h, some (some f) => .ok (.params (.ok (paramsOf before ⟨h, w, some f⟩)))
  | some _, none, some (some _) => .error .unwrap
  | _, _, _ => .ok (.params (.error .ConfigurationIncomplete))

/-- What a call gives, one frame fewer than `2 ^ 64` having been sent at most. -/
def given (before : List EncOp) : EncOp → Rust EncOut
  | .getParams => paramsGiven before
  | op => .ok (answer before op)

/-- What the calls of a history give. -/
def givenAll (before : List EncOp) : List EncOp → Rust (List EncOut)
  | [] => .ok []
  | op :: ops => do
    let x ← given before op
    let xs ← givenAll (before ++ [op]) ops
    return x :: xs

/-- Calls that ask for a frame. -/
def DecOp.isReceive : DecOp → Bool
  | .receive => true
  | _ => false

/-- Calls that send a packet. -/
def DecOp.isSend : DecOp → Bool
  | .send _ => true
  | _ => false

/-- The number that extradata stand for. -/
def extradataIn : DecOp → Option Nat
  | .extradata l => some (if 5 ≤ l.length then 42 else 12)
  | _ => none

/-- The number of packets since the newest extradata, counted from the number that these stand for. -/
def counted (ops : List DecOp) : Nat :=
  (newest extradataIn ops).getD 0 +
    (ops.reverse.takeWhile fun op => (extradataIn op).isNone).countP DecOp.isSend

/-- What a call of the decoder gives, if it is not `receive_frame`. -/
def decAnswer : DecOp → DecOut
  | .extradata _ => .none
  | _ => .unit (.ok ())

/-! ### proofs -/

theorem newest_snoc {ω α : Type} (says : ω → Option α) (before : List ω) (op : ω) :
    newest says (before ++ [op]) = (says op).or (newest says before) := by
  unfold newest
  rw [List.reverse_append, List.reverse_singleton, List.singleton_append, List.findSome?_cons]
  cases says op <;> rfl

/-- The encoder holds what the calls so far say. -/
structure Holds (e : DummyEnc) (before : List EncOp) : Prop where
  state : e.state = before.countP EncOp.isSend
  w : e.w = newest widthIn before
  h : e.h = newest heightIn before
  format : e.format = (newest formatIn before).join

theorem known_some {α : Type} {x : Option (Option α)} (f : α) : x.join = some f ↔ x = some (some f) := by
  cases x with
  | none => simp
  | some x => simp

theorem given_getParams {e : DummyEnc} {before : List EncOp} (hb : Holds e before) :
    (do return EncOut.params (← e.getParams)) = paramsGiven before := by
  unfold DummyEnc.getParams paramsGiven
  rw [hb.w, hb.h, hb.format]
  cases newest widthIn before with
  | none => cases newest heightIn before <;> cases newest formatIn before <;> rfl
  | some w =>
  cases newest formatIn before with
  | none => cases newest heightIn before <;> rfl
  | some f =>
  cases f with
  | none => cases newest heightIn before <;> rfl
  | some f =>
  cases newest heightIn before with
  | none => rfl
  | some h =>
    simp only [Option.isNone_some, Option.join_some, Bool.or_self, Bool.false_eq_true, if_false, unwrapped, ok_bind,
      pure_eq_ok, DummyEnc.getExtradata, hb.state]
    rfl

theorem setOption_holds {e : DummyEnc} {before : List EncOp} (hb : Holds e before) (k : String) (v : Raw) :
    Holds (e.setOption k v.into).2 (before ++ [.option k v]) ∧
      answer before (.option k v) = .unit (e.setOption k v.into).1 := by
  have hc : (before ++ [EncOp.option k v]).countP EncOp.isSend = before.countP EncOp.isSend := by
    simp [List.countP_append, EncOp.isSend]
  unfold answer
  by_cases hw : k = "w"
  · subst hw
    cases hv : v.into <;>
    · refine ⟨⟨?_, ?_, ?_, ?_⟩, ?_⟩ <;>
      simp [DummyEnc.setOption, newest_snoc, widthIn, heightIn, formatIn, hv, hb.state, hb.w, hb.h, hb.format, hc]
  · by_cases hh : k = "h"
    · subst hh
      cases hv : v.into <;>
      · refine ⟨⟨?_, ?_, ?_, ?_⟩, ?_⟩ <;>
        simp [DummyEnc.setOption, newest_snoc, widthIn, heightIn, formatIn, hv, hb.state, hb.w, hb.h, hb.format, hc]
    · by_cases hf : k = "format"
      · subst hf
        cases hv : v.into <;>
        · refine ⟨⟨?_, ?_, ?_, ?_⟩, ?_⟩ <;>
          simp [DummyEnc.setOption, newest_snoc, widthIn, heightIn, formatIn, hv, hb.state, hb.w, hb.h, hb.format, hc]
      · have he : e.setOption k v.into = (.error (.Unsupported (k ++ " key")), e) := by
          unfold DummyEnc.setOption
          split
          · exact absurd rfl hw
          · exact absurd rfl hh
          · exact absurd rfl hf
          · rfl
        rw [he]
        refine ⟨⟨?_, ?_, ?_, ?_⟩, ?_⟩ <;>
        simp [newest_snoc, widthIn, heightIn, formatIn, hw, hh, hf, hb.state, hb.w, hb.h, hb.format, hc]

theorem setParams_holds {e : DummyEnc} {before : List EncOp} (hb : Holds e before) (p : CodecParams) :
    Holds (e.setParams p) (before ++ [.setParams p]) := by
  have hc : (before ++ [EncOp.setParams p]).countP EncOp.isSend = before.countP EncOp.isSend := by
    simp [List.countP_append, EncOp.isSend]
  unfold DummyEnc.setParams
  cases hk : p.kind with
  | none =>
    refine ⟨?_, ?_, ?_, ?_⟩ <;>
    simp [newest_snoc, widthIn, heightIn, formatIn, hk, hb.state, hb.w, hb.h, hb.format, hc]
  | some k =>
    cases k <;>
    · refine ⟨?_, ?_, ?_, ?_⟩ <;>
      simp [newest_snoc, widthIn, heightIn, formatIn, hk, hb.state, hb.w, hb.h, hb.format, hc]

/-- Calls that give no setting and send nothing. -/
theorem quiet_holds {e : DummyEnc} {before : List EncOp} (hb : Holds e before) {op : EncOp} (hs : EncOp.isSend op = false)
    (hw : widthIn op = none) (hh : heightIn op = none) (hf : formatIn op = none) : Holds e (before ++ [op]) := by
  refine ⟨?_, ?_, ?_, ?_⟩
  · simp [List.countP_append, hs, hb.state]
  · simp [newest_snoc, hw, hb.w]
  · simp [newest_snoc, hh, hb.h]
  · simp [newest_snoc, hf, hb.format]

theorem enc_step {e : DummyEnc} {before : List EncOp} (hb : Holds e before) (op : EncOp)
    (hs : (before ++ [op]).countP EncOp.isSend < 2 ^ 64) :
    ∃ e', Holds e' (before ++ [op]) ∧
      (⟨e⟩ : EncContext DummyEnc).step dummyEncoder op = (given before op).map fun x => (x, ⟨e'⟩) := by
  cases op with
  | configure =>
    refine ⟨e, quiet_holds hb rfl rfl rfl rfl, ?_⟩
    have hd : (e.h.isSome && e.w.isSome && e.format.isSome) = (described before).isSome := by
      rw [hb.w, hb.h, hb.format]
      unfold described
      cases newest widthIn before <;> cases newest heightIn before <;>
        rcases newest formatIn before with _ | _ | _ <;> rfl
    simp only [EncContext.step, EncContext.configure, dummyEncoder, hd]
    rfl
  | setParams p => exact ⟨_, setParams_holds hb p, rfl⟩
  | getParams =>
    refine ⟨e, quiet_holds hb rfl rfl rfl rfl, ?_⟩
    have := given_getParams hb
    simp only [given, ← this, EncContext.step, EncContext.getParams, dummyEncoder]
    cases e.getParams <;> rfl
  | option k v =>
    obtain ⟨h1, h2⟩ := setOption_holds hb k v
    refine ⟨_, h1, ?_⟩
    simp only [given, h2]
    rfl
  | extradata =>
    refine ⟨e, quiet_holds hb rfl rfl rfl rfl, ?_⟩
    simp only [EncContext.step, EncContext.getExtradata, dummyEncoder, DummyEnc.getExtradata, hb.state]
    rfl
  | send f =>
    have hc : (before ++ [EncOp.send f]).countP EncOp.isSend = before.countP EncOp.isSend + 1 := by
      simp [List.countP_append, EncOp.isSend]
    rw [hc] at hs
    refine ⟨{ e with state := e.state + 1 }, ⟨by rw [hc, hb.state], ?_, ?_, ?_⟩, ?_⟩
    · simp [newest_snoc, widthIn, hb.w]
    · simp [newest_snoc, heightIn, hb.h]
    · simp [newest_snoc, formatIn, hb.format]
    · simp only [EncContext.step, EncContext.sendFrame, dummyEncoder, uadd, hb.state, if_pos hs]
      rfl
  | receive =>
    refine ⟨e, quiet_holds hb rfl rfl rfl rfl, ?_⟩
    simp only [EncContext.step, EncContext.receivePacket, dummyEncoder, hb.state]
    rfl
  | flush => exact ⟨e, quiet_holds hb rfl rfl rfl rfl, rfl⟩

theorem enc_run (ops : List EncOp) : ∀ {e : DummyEnc} {before : List EncOp}, Holds e before →
    (before ++ ops).countP EncOp.isSend < 2 ^ 64 →
    ((⟨e⟩ : EncContext DummyEnc).run dummyEncoder ops).map (·.1) = givenAll before ops := by
  induction ops with
  | nil => intros; rfl
  | cons op ops ih =>
    intro e before hb hs
    rw [show before ++ op :: ops = (before ++ [op]) ++ ops by simp] at hs
    obtain ⟨e', h1, h2⟩ := enc_step hb op (by rw [List.countP_append] at hs; omega)
    have := ih h1 hs
    simp only [EncContext.run, givenAll, h2, ← this]
    cases given before op with
    | error x => rfl
    | ok x =>
      simp only [Except.map, ok_bind]
      cases (⟨e'⟩ : EncContext DummyEnc).run dummyEncoder ops <;> rfl

/-- **C175** What all calls give, one after the other: `get_params` exchanges the width and the height, and panics if
only the height is missing. -/
theorem c175_exact (ops : List EncOp) (hs : ops.countP EncOp.isSend < 2 ^ 64) : encode ops = givenAll [] ops := by
  have := enc_run ops (e := dummyEncDescr.create) (before := []) ⟨rfl, rfl, rfl, rfl⟩ (by simpa using hs)
  rw [← this]
  have hn : EncContext.byName (Codecs.fromList [dummyEncDescr]) "dummy" = .ok (some ⟨dummyEncDescr.create⟩) := rfl
  simp only [encode, hn, ok_bind]
  cases (⟨dummyEncDescr.create⟩ : EncContext DummyEnc).run dummyEncoder ops <;> rfl

theorem square_given {ops : List EncOp} : ∀ {before : List EncOp},
    (∀ i w f, ops[i]? = some .getParams → newest widthIn (before ++ ops.take i) = some w →
      newest formatIn (before ++ ops.take i) = some (some f) → newest heightIn (before ++ ops.take i) = some w) →
    givenAll before ops = .ok (ops.mapIdx fun i op => answer (before ++ ops.take i) op) := by
  induction ops with
  | nil => intros; rfl
  | cons op ops ih =>
    intro before h
    have hx : given before op = .ok (answer before op) := by
      cases op with
      | getParams =>
        have h0 := h 0
        simp only [List.take_zero, List.append_nil, List.getElem?_cons_zero, forall_const] at h0
        simp only [given, paramsGiven, answer, described]
        cases hw : newest widthIn before with
        | none => cases newest heightIn before <;> rcases newest formatIn before with _ | _ | _ <;> rfl
        | some w =>
        rcases hf : newest formatIn before with _ | _ | f
        · cases newest heightIn before <;> rfl
        · cases newest heightIn before <;> rfl
        · rw [h0 w f hw hf]
      | _ => rfl
    have ht := @ih (before ++ [op]) (fun i w f => by
      have := h (i + 1) w f
      simpa using this)
    simp only [givenAll, hx, ht, ok_bind, pure_eq_ok, List.mapIdx_cons, List.take_zero, List.append_nil,
      List.take_succ_cons]
    simp

/-- **C175** The calls give what they should as long as `get_params` is only called for square videos, or when the width
or the format is missing. -/
theorem c175_partial (ops : List EncOp) (hs : ops.countP EncOp.isSend < 2 ^ 64) (hq : Square ops) :
    encode ops = .ok (answers ops) := by
  rw [c175_exact ops hs]
  have := @square_given ops [] (by simpa [Square] using hq)
  simpa [answers] using this

/-- **C175** What is not proved in `c175_partial` is false: the parameters that an encoder is given come back with the
width and the height exchanged, and asking for them panics if only the height is missing. -/
theorem c175_fails : ¬ C175 ∧
    (∀ p info f, p.kind = some (.Video info) → info.format = some f →
      encode [.setParams p, .getParams] = .ok [.unit (.ok ()), .params (.ok
        ⟨some (.Video ⟨info.height, info.width, some f⟩), some "dummy", some [0], 0, 0, 0⟩)]) ∧
    ∀ w f, encode [.option "w" (.u64 w), .option "format" (.formaton f), .getParams] = .error .unwrap := by
  have h2 : ∀ w f, encode [.option "w" (.u64 w), .option "format" (.formaton f), .getParams] = .error .unwrap :=
    fun w f => rfl
  refine ⟨fun h => ?_, ?_, h2⟩
  · have := h [.option "w" (.u64 1), .option "format" (.formaton Pixel.formats.YUV420), .getParams] (by decide)
    rw [h2] at this
    cases this
  · intro p info f hk hf
    rw [c175_exact _ (by simp [EncOp.isSend])]
    simp [givenAll, given, answer, paramsGiven, newest, widthIn, heightIn, formatIn, hk, hf, paramsOf, sentByte,
      EncOp.isSend]

/-- A square video, and calls before its size is known. -/
example : Square [.getParams, .option "w" (.u64 4), .configure, .getParams,
    .setParams ⟨some (.Video ⟨8, 8, some Pixel.formats.YUV420⟩), none, none, 0, 0, 0⟩, .configure, .getParams] := by
  intro i w f hi hw hf
  match i, hi with
  | 0, _ => cases hw
  | 3, _ => cases hf
  | 6, _ => exact hw
  | n + 7, hi => simp at hi

/-! ### the decoder -/

theorem counted_snoc (before : List DecOp) (op : DecOp) : counted (before ++ [op]) =
    match extradataIn op with
    | some n => n
    | none => counted before + if DecOp.isSend op then 1 else 0 := by
  unfold counted
  rw [newest_snoc, List.reverse_append, List.reverse_singleton, List.singleton_append, List.takeWhile_cons]
  cases hx : extradataIn op with
  | some n =>
    cases op with
    | extradata l => simp
    | _ => cases hx
  | none =>
    simp only [Option.isNone_none, if_true, List.countP_cons, Option.none_or]
    omega

theorem dec_run (ops : List DecOp) : ∀ (before : List DecOp), ops.any DecOp.isReceive = false →
    before.length + ops.length + 42 < 2 ^ 64 → counted before ≤ 42 + before.length →
    (⟨⟨counted before⟩⟩ : DecContext DummyDec).run dummyDecoder ops =
      .ok (ops.map decAnswer, ⟨⟨counted (before ++ ops)⟩⟩) := by
  induction ops with
  | nil => intro before _ _ _; rw [List.append_nil]; rfl
  | cons op ops ih =>
    intro before hr hs hb
    simp only [List.any_cons, Bool.or_eq_false_iff] at hr
    rw [List.length_cons] at hs
    have hc := counted_snoc before op
    have step : (⟨⟨counted before⟩⟩ : DecContext DummyDec).step dummyDecoder op =
        .ok (decAnswer op, ⟨⟨counted (before ++ [op])⟩⟩) := by
      rw [hc]
      cases op with
      | extradata l => rfl
      | send p =>
        simp only [DecContext.step, DecContext.sendPacket, dummyDecoder, uadd,
          if_pos (show counted before + 1 < 2 ^ 64 by omega)]
        rfl
      | receive => cases hr.1
      | configure => rfl
      | flush => rfl
    have hle : counted (before ++ [op]) ≤ 42 + (before ++ [op]).length := by
      rw [hc, List.length_append, List.length_singleton]
      cases op with
      | extradata l => simp only [extradataIn]; split <;> omega
      | send p => show counted before + 1 ≤ 42 + (before.length + 1); omega
      | _ => show counted before + 0 ≤ 42 + (before.length + 1); omega
    have := ih (before ++ [op]) hr.2 (by rw [List.length_append, List.length_singleton]; omega) hle
    simp only [DecContext.run, step, ok_bind, this, List.append_assoc, List.singleton_append, pure_eq_ok, List.map_cons]

theorem no_receive {ops : List DecOp} (h : .receive ∉ ops) : ops.any DecOp.isReceive = false := by
  rw [List.any_eq_false]
  intro op hop hr
  cases op with
  | receive => exact h hop
  | _ => cases hr

/-- **C175** The decoder answers every call but `receive_frame`, and counts the packets since the newest extradata. -/
theorem c175_decoder (ops : List DecOp) (hr : .receive ∉ ops) (hs : ops.length + 42 < 2 ^ 64) :
    decode ops = .ok (ops.map decAnswer, ⟨counted ops⟩) := by
  have := dec_run ops [] (no_receive hr) (by simpa using hs) (by decide)
  have hn : DecContext.byName (Codecs.fromList [dummyDecDescr]) "dummy" = .ok (some ⟨⟨counted []⟩⟩) := rfl
  simp only [decode, hn, ok_bind, this, List.nil_append]
  rfl

/-- **C175** Asking it for a frame panics, whatever was sent before. -/
theorem c175_decoder_fails (ops rest : List DecOp) (hr : .receive ∉ ops)
    (hs : ops.length + 42 < 2 ^ 64) : decode (ops ++ .receive :: rest) = .error .unimplemented := by
  have go : ∀ (ops : List DecOp) (c c' : DecContext DummyDec) (xs : List DecOut),
      c.run dummyDecoder ops = .ok (xs, c') → c.run dummyDecoder (ops ++ .receive :: rest) = .error .unimplemented := by
    intro ops
    induction ops with
    | nil => intro c c' xs _; rfl
    | cons op ops ih =>
      intro c c' xs h
      simp only [DecContext.run, List.cons_append] at h ⊢
      cases h1 : c.step dummyDecoder op with
      | error e => rw [h1] at h; cases h
      | ok r =>
      obtain ⟨x, c1⟩ := r
      rw [h1] at h
      simp only [ok_bind] at h ⊢
      cases h2 : c1.run dummyDecoder ops with
      | error e => rw [h2] at h; cases h
      | ok r => rw [ih c1 r.2 r.1 h2]; rfl
  have hn : DecContext.byName (Codecs.fromList [dummyDecDescr]) "dummy" = .ok (some ⟨⟨counted []⟩⟩) := rfl
  have := dec_run ops [] (no_receive hr) (by simpa using hs) (by decide)
  simp only [decode, hn, ok_bind, go ops _ _ _ this]
  rfl

/-- Two packets after long extradata. -/
example : decode [.extradata [1], .send Packet.new, .extradata [1, 2, 3, 4, 5], .send Packet.new, .send Packet.new] =
    .ok ([.none, .unit (.ok ()), .none, .unit (.ok ()), .unit (.ok ())], ⟨44⟩) := rfl

end Verif.Conform
