import Verif.Codec.Props

/-!
# C128: the codec contexts add no panics

The counterpart of C108 and C122 for decoder.rs:43-87 and encoder.rs:38-106.
-/

namespace Verif.Codec
open Verif Verif.Frame Verif.Packet Verif.Stream Verif.Value Verif.Pixel

variable {D E : Type}

/-- A call of the decoder object itself panics. -/
inductive DecBreaks (dc : Decoder D) (d : D) (p : Panic) : DecOp → Prop
  | extradata {l} : dc.setExtradata d l = .error p → DecBreaks dc d p (.extradata l)
  | send {q} : dc.sendPacket d q = .error p → DecBreaks dc d p (.send q)
  | receive : dc.receiveFrame d = .error p → DecBreaks dc d p .receive
  | configure : dc.configure d = .error p → DecBreaks dc d p .configure
  | flush : dc.flush d = .error p → DecBreaks dc d p .flush

/-- A call of the encoder object itself panics. -/
inductive EncBreaks (ec : Encoder E) (d : E) (p : Panic) : EncOp → Prop
  | configure : ec.configure d = .error p → EncBreaks ec d p .configure
  | setParams {q} : ec.setParams d q = .error p → EncBreaks ec d p (.setParams q)
  | getParams : ec.getParams d = .error p → EncBreaks ec d p .getParams
  | option {k v} : ec.setOption d k v.into = .error p → EncBreaks ec d p (.option k v)
  | extradata : ec.getExtradata d = .error p → EncBreaks ec d p .extradata
  | send {f} : ec.sendFrame d f = .error p → EncBreaks ec d p (.send f)
  | receive : ec.receivePacket d = .error p → EncBreaks ec d p .receive
  | flush : ec.flush d = .error p → EncBreaks ec d p .flush

theorem map_error {α β : Type} {y : Rust α} {g : α → β} {p : Panic} :
    (do let a ← y; pure (g a)) = (.error p : Rust β) ↔ y = .error p := by
  cases y <;> simp

theorem dec_step_panics (dc : Decoder D) (c : DecContext D) (op : DecOp) (p : Panic) :
    c.step dc op = .error p ↔ DecBreaks dc c.decoder p op := by
  cases op with
  | extradata l =>
    simp only [DecContext.step, DecContext.setExtradata]
    rw [map_error, map_error]
    exact ⟨.extradata, fun h => by cases h; assumption⟩
  | send q =>
    simp only [DecContext.step, DecContext.sendPacket]
    rw [map_error, map_error]
    exact ⟨.send, fun h => by cases h; assumption⟩
  | receive =>
    simp only [DecContext.step, DecContext.receiveFrame]
    rw [map_error, map_error]
    exact ⟨.receive, fun h => by cases h; assumption⟩
  | configure =>
    simp only [DecContext.step, DecContext.configure]
    rw [map_error, map_error]
    exact ⟨.configure, fun h => by cases h; assumption⟩
  | flush =>
    simp only [DecContext.step, DecContext.flush]
    rw [map_error, map_error]
    exact ⟨.flush, fun h => by cases h; assumption⟩

theorem enc_step_panics (ec : Encoder E) (c : EncContext E) (op : EncOp) (p : Panic) :
    c.step ec op = .error p ↔ EncBreaks ec c.encoder p op := by
  cases op with
  | configure =>
    simp only [EncContext.step, EncContext.configure]
    rw [map_error, map_error]
    exact ⟨.configure, fun h => by cases h; assumption⟩
  | setParams q =>
    simp only [EncContext.step, EncContext.setParams]
    rw [map_error, map_error]
    exact ⟨.setParams, fun h => by cases h; assumption⟩
  | getParams =>
    simp only [EncContext.step, EncContext.getParams]
    rw [map_error]
    exact ⟨.getParams, fun h => by cases h; assumption⟩
  | option k v =>
    simp only [EncContext.step, EncContext.setOption]
    rw [map_error, map_error]
    exact ⟨.option, fun h => by cases h; assumption⟩
  | extradata =>
    simp only [EncContext.step, EncContext.getExtradata]
    rw [map_error]
    exact ⟨.extradata, fun h => by cases h; assumption⟩
  | send f =>
    simp only [EncContext.step, EncContext.sendFrame]
    rw [map_error, map_error]
    exact ⟨.send, fun h => by cases h; assumption⟩
  | receive =>
    simp only [EncContext.step, EncContext.receivePacket]
    rw [map_error, map_error]
    exact ⟨.receive, fun h => by cases h; assumption⟩
  | flush =>
    simp only [EncContext.step, EncContext.flush]
    rw [map_error, map_error]
    exact ⟨.flush, fun h => by cases h; assumption⟩

/-- **C128**, decoders: a history of calls on a context panics exactly if, in the state the decoder itself reaches by a
part of it, the decoder does, as called next. -/
theorem c128_decoder (dc : Decoder D) (c : DecContext D) (ops : List DecOp) (p : Panic) :
    c.run dc ops = .error p ↔ ∃ before op after xs d, ops = before ++ op :: after ∧
      DecCalls dc c.decoder before xs d ∧ DecBreaks dc d p op := by
  induction ops generalizing c with
  | nil =>
    constructor
    · intro h; cases h
    · rintro ⟨before, op, after, xs, d, h, -⟩
      simp at h
  | cons op ops ih =>
    simp only [DecContext.run]
    cases h1 : c.step dc op with
    | error e =>
      simp only [error_bind, Except.error.injEq]
      constructor
      · rintro rfl
        exact ⟨[], op, ops, [], c.decoder, rfl, .nil, (dec_step_panics dc c op e).1 h1⟩
      · rintro ⟨before, op', after, xs, d, e1, e2, e3⟩
        cases before with
        | nil =>
          simp only [List.nil_append, List.cons.injEq] at e1
          obtain ⟨rfl, -⟩ := e1
          cases e2
          have := (dec_step_panics dc c op p).2 e3
          rw [h1] at this
          exact Except.error.inj this
        | cons b before =>
          simp only [List.cons_append, List.cons.injEq] at e1
          obtain ⟨rfl, -⟩ := e1
          cases e2 with
          | cons f g =>
            have := (dec_step_iff dc c ⟨_⟩ op _).2 f
            rw [h1] at this; cases this
    | ok v =>
      obtain ⟨x, c1⟩ := v
      simp only [ok_bind]
      rw [map_error, ih c1]
      constructor
      · rintro ⟨before, op', after, xs, d, rfl, e2, e3⟩
        exact ⟨op :: before, op', after, x :: xs, d, rfl, .cons ((dec_step_iff dc c c1 op x).1 h1) e2, e3⟩
      · rintro ⟨before, op', after, xs, d, e1, e2, e3⟩
        cases before with
        | nil =>
          simp only [List.nil_append, List.cons.injEq] at e1
          obtain ⟨rfl, -⟩ := e1
          cases e2
          have := (dec_step_panics dc c op p).2 e3
          rw [h1] at this; cases this
        | cons b before =>
          simp only [List.cons_append, List.cons.injEq] at e1
          obtain ⟨rfl, rfl⟩ := e1
          cases e2 with
          | @cons _ _ _ d1 _ ys _ f g =>
            have := (dec_step_iff dc c ⟨d1⟩ op _).2 f
            rw [h1] at this; cases this
            exact ⟨before, op', after, _, d, rfl, g, e3⟩

/-- **C128**, encoders. -/
theorem c128_encoder (ec : Encoder E) (c : EncContext E) (ops : List EncOp) (p : Panic) :
    c.run ec ops = .error p ↔ ∃ before op after xs d, ops = before ++ op :: after ∧
      EncCalls ec c.encoder before xs d ∧ EncBreaks ec d p op := by
  induction ops generalizing c with
  | nil =>
    constructor
    · intro h; cases h
    · rintro ⟨before, op, after, xs, d, h, -⟩
      simp at h
  | cons op ops ih =>
    simp only [EncContext.run]
    cases h1 : c.step ec op with
    | error e =>
      simp only [error_bind, Except.error.injEq]
      constructor
      · rintro rfl
        exact ⟨[], op, ops, [], c.encoder, rfl, .nil, (enc_step_panics ec c op e).1 h1⟩
      · rintro ⟨before, op', after, xs, d, e1, e2, e3⟩
        cases before with
        | nil =>
          simp only [List.nil_append, List.cons.injEq] at e1
          obtain ⟨rfl, -⟩ := e1
          cases e2
          have := (enc_step_panics ec c op p).2 e3
          rw [h1] at this
          exact Except.error.inj this
        | cons b before =>
          simp only [List.cons_append, List.cons.injEq] at e1
          obtain ⟨rfl, -⟩ := e1
          cases e2 with
          | cons f g =>
            have := (enc_step_iff ec c ⟨_⟩ op _).2 f
            rw [h1] at this; cases this
    | ok v =>
      obtain ⟨x, c1⟩ := v
      simp only [ok_bind]
      rw [map_error, ih c1]
      constructor
      · rintro ⟨before, op', after, xs, d, rfl, e2, e3⟩
        exact ⟨op :: before, op', after, x :: xs, d, rfl, .cons ((enc_step_iff ec c c1 op x).1 h1) e2, e3⟩
      · rintro ⟨before, op', after, xs, d, e1, e2, e3⟩
        cases before with
        | nil =>
          simp only [List.nil_append, List.cons.injEq] at e1
          obtain ⟨rfl, -⟩ := e1
          cases e2
          have := (enc_step_panics ec c op p).2 e3
          rw [h1] at this; cases this
        | cons b before =>
          simp only [List.cons_append, List.cons.injEq] at e1
          obtain ⟨rfl, rfl⟩ := e1
          cases e2 with
          | @cons _ _ _ d1 _ ys _ f g =>
            have := (enc_step_iff ec c ⟨d1⟩ op _).2 f
            rw [h1] at this; cases this
            exact ⟨before, op', after, _, d, rfl, g, e3⟩

/-! ### the library's own dummies -/

/-- decoder.rs:148-170, the decoder of the tests -/
def dummyDecoder : Decoder Nat where
  setExtradata _ l := .ok (if l.length > 4 then 42 else 12)
  sendPacket d _ := .ok (.ok (), d + 1)
  receiveFrame _ := .error .unimplemented
  configure d := .ok (.ok (), d)
  flush d := .ok (.ok (), d)

example : ((⟨0⟩ : DecContext Nat).run dummyDecoder [.extradata [1], .send Packet.new, .receive, .flush]).isOk = false ∧
    DecCalls dummyDecoder 0 [.extradata [1], .send Packet.new] [.none, .unit (.ok ())] 13 ∧
    DecBreaks dummyDecoder 13 .unimplemented .receive :=
  ⟨rfl, .cons (.extradata rfl) (.cons (.send rfl) .nil), .receive rfl⟩

/-- encoder.rs:168-173, the state of the encoder of the tests -/
structure DummyEnc where
  state : Nat
  w : Option Nat
  h : Option Nat
  format : Option Formaton

/-- encoder.rs:197-266, the encoder of the tests. `get_params` looks at `w` twice and never at `h` (245). -/
def dummyEncoder : Encoder DummyEnc where
  configure e := .ok (if e.h.isSome && e.w.isSome && e.format.isSome then .ok () else .error .ConfigurationIncomplete, e)
  getExtradata e := .ok (some [BitVec.ofNat 8 e.state])
  sendFrame e _ := .ok (.ok (), { e with state := e.state + 1 })
  receivePacket e := .ok (.ok { Packet.withCapacity 1 with data := [BitVec.ofNat 8 e.state] }, e)
  setOption e key val := .ok <| match key, val with
    | "w", .U64 v => (.ok (), { e with w := some v.toNat })
    | "h", .U64 v => (.ok (), { e with h := some v.toNat })
    | "format", .Formaton f => (.ok (), { e with format := some f })
    | _, _ => (.error (.Unsupported (key ++ " key")), e)
  setParams e params := .ok <| match params.kind with
    | some (.Video info) => (.ok (), { e with w := some info.width, h := some info.height, format := info.format })
    | _ => (.ok (), e)
  getParams e :=
    if e.w.isNone || e.w.isNone || e.format.isNone then .ok (.error .ConfigurationIncomplete)
    else match e.w, e.h with
    | some height, some width =>
      .ok <| .ok { kind := some (.Video { height, width, format := e.format }), codec_id := some "dummy",
                   extradata := some [BitVec.ofNat 8 e.state], bit_rate := 0, convergence_window := 0, delay := 0 }
    | _, _ => .error .unwrap
  flush e := .ok (.ok (), e)

/-- The panic of the dummy encoder comes through: a width and a format, but no height. -/
example : (match (⟨⟨0, none, none, none⟩⟩ : EncContext DummyEnc).run dummyEncoder
      [.configure, .option "w" (.u64 4), .option "format" (.formaton formats.YUV420), .getParams] with
    | .error p => decide (p = .unwrap)
    | _ => false) = true := by rfl

end Verif.Codec
