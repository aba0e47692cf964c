import Verif.Frame.Exact

/-!
# C110, C111: `av-data` in builds without overflow checks

The release profile of cargo leaves out the checks for overflow: sums, differences and products wrap, and shifts use
the number of places modulo the width. Here the functions of `av-data` that compute sizes, for any arithmetic; the
checked one gives the functions of the model.
-/

namespace Verif.Frame
open Verif Verif.Data Verif.Audio Verif.Pixel

/-- The operators of `usize` (and `+` of `u8`). -/
structure Arith where
  add : Nat → Nat → Rust Nat
  sub : Nat → Nat → Rust Nat
  mul : Nat → Nat → Rust Nat
  shl : Nat → Nat → Rust Nat
  shr : Nat → Nat → Rust Nat
  add8 : Nat → Nat → Rust Nat

/-- With overflow checks. -/
def checked : Arith :=
  ⟨uadd, usub, umul, ushl, ushr, fun a b => if a + b < 256 then .ok (a + b) else .error .overflow⟩

/-- Without. -/
def wrapping : Arith where
  add a b := .ok ((a + b) % 2 ^ 64)
  sub a b := .ok (if b ≤ a then a - b else a + 2 ^ 64 - b)
  mul a b := .ok (a * b % 2 ^ 64)
  shl a s := .ok (a <<< (s % 64) % 2 ^ 64)
  shr a s := .ok (a >>> (s % 64))
  add8 a b := .ok ((a + b) % 256)

namespace Arith
variable (o : Arith)

/-- audiosample.rs:27-29, pixel.rs:579-581 -/
def align (v a : Nat) : Rust Nat := do
  let s ← o.sub (← o.add v a) 1
  let m ← o.sub a 1
  return s &&& unot m

/-- audiosample.rs:33-35 -/
def roundToByte (v : Nat) : Rust Nat := do o.shr (← o.add v 7) 3

/-- audiosample.rs:52-60 -/
def getAudioSize (f : Soniton) (length alignment : Nat) : Rust Nat := do
  let s ← (if f.packed then do o.roundToByte (← o.mul length f.bits)
    else do o.mul length (← o.roundToByte f.bits))
  o.align s alignment

/-- pixel.rs:657, 662, 674 -/
def subsampled (v ss : Nat) : Rust Nat := do
  let m ← o.sub (← o.shl 1 ss) 1
  o.shr (← o.add v m) ss

/-- pixel.rs:656-658 -/
def getWidth (c : Chromaton) (width : Nat) : Rust Nat := o.subsampled width c.h_ss

/-- pixel.rs:661-663 -/
def getHeight (c : Chromaton) (height : Nat) : Rust Nat := o.subsampled height c.v_ss

/-- pixel.rs:666-669 -/
def getLinesize (c : Chromaton) (width alignment : Nat) : Rust Nat := do
  let d := c.depth
  let bits ← o.sub (← o.add (← o.mul (← o.getWidth c width) d) d) 1
  o.align (← o.shr bits 3) alignment

/-- pixel.rs:673-676 -/
def getDataSize (c : Chromaton) (width height align : Nat) : Rust Nat := do
  let nh ← o.subsampled height c.v_ss
  o.mul (← o.getLinesize c width align) nh

/-- pixel.rs:777-779 -/
def sumDepth : Nat → List (Option Chromaton) → Rust Nat
  | d, [] => .ok d
  | d, none :: cs => sumDepth d cs
  | d, some c :: cs => do sumDepth (← o.add8 d c.depth) cs

/-- frame.rs:90-106 -/
def newVideoInfo (width height : Nat) (flipped : Bool) (frame_type : FrameType) (format : Formaton) :
    Rust VideoInfo := do
  let bits ← o.sumDepth 0 format.comp_info
  return { width, height, flipped, frame_type, format, bits }

/-- frame.rs:141-145 -/
def sizeFrom (w h align : Nat) : Nat → List (Option Chromaton) → Rust Nat
  | size, [] => .ok size
  | size, none :: cs => sizeFrom w h align size cs
  | size, some c :: cs => do
    let s ← o.add size (← o.getDataSize c w h align)
    sizeFrom w h align s cs

/-- frame.rs:139-147 -/
def videoSize (v : VideoInfo) (align : Nat) : Rust Nat := o.sizeFrom v.width v.height align 0 v.format.comp_info

/-- frame.rs:219-221 -/
def audioSize (a : AudioInfo) (align : Nat) : Rust Nat := do
  o.mul (← o.getAudioSize a.format a.samples align) a.map.len

/-- frame.rs:418-427 -/
def videoPlanes (w h : Nat) : DefaultFrameBuffer → List (Option Chromaton) → Rust DefaultFrameBuffer
  | b, [] => .ok b
  | b, none :: cs => videoPlanes w h b cs
  | b, some c :: cs => do
    let planesize ← o.getDataSize c w h ALIGNMENT
    let linesize ← o.getLinesize c w ALIGNMENT
    videoPlanes w h (← b.pushPlane planesize linesize) cs

/-- frame.rs:442-448 -/
def audioPlanes (a : AudioInfo) : DefaultFrameBuffer → Nat → Rust DefaultFrameBuffer
  | b, 0 => .ok b
  | b, n + 1 => do
    let size ← o.getAudioSize a.format a.samples ALIGNMENT
    audioPlanes a (← b.pushPlane size size) n

/-- frame.rs:409-458 -/
def newBuffer : MediaKind → Rust DefaultFrameBuffer
  | .Video v => do
    let size ← o.videoSize v ALIGNMENT
    o.videoPlanes v.width v.height { buf := List.replicate size 0, planes := [] } v.format.comp_info
  | .Audio a => do
    let size ← o.audioSize a ALIGNMENT
    let b : DefaultFrameBuffer := { buf := List.replicate size 0, planes := [] }
    if a.format.planar then o.audioPlanes a b a.map.len else b.pushPlane size size

/-- frame.rs:474-486 -/
def newDefaultFrame (kind : MediaKind) (t : Option TimeInfo) : Rust Frame := do
  let buf ← o.newBuffer kind
  return { kind, planes := buf.planes, t := t.getD .default }

/-- frame.rs:511-523 -/
def copyOut (w h : Nat) :
    List (List U8) → List Nat → List Plane → List (Option Chromaton) → Rust (List (List U8))
  | d :: ds, l :: ls, p :: ps, c :: cs =>
    match c with
    | none => .error .unwrap
    | some c => do
      let d ← copyPlane d l p.buf p.linesize (← o.getWidth c w) (← o.getHeight c h)
      return d :: (← copyOut w h ds ls ps cs)
  | ds, _, _, _ => .ok ds

/-- frame.rs:503-527 -/
def copyFrameToBuffer (f : Frame) (dst : List (List U8)) (dstLinesizes : List Nat) : Rust (List (List U8)) :=
  match f.kind with
  | .Audio _ => .error .unimplemented
  | .Video v => o.copyOut v.width v.height dst dstLinesizes f.planes v.format.comp_info

/-- frame.rs:540-554 -/
def copyIn (w h : Nat) :
    List Plane → List (List U8) → List Nat → List (Option Chromaton) → Rust (List Plane)
  | [], _, _, _ => .ok []
  | p :: ps, s :: ss, l :: ls, some c :: cs => do
    let d ← copyPlane p.buf p.linesize s l (← o.getWidth c w) (← o.getHeight c h)
    return { p with buf := d } :: (← copyIn w h ps ss ls cs)
  | _ :: _, _, _, _ => .error .unwrap

/-- frame.rs:531-558 -/
def copyFromSlice (f : Frame) (src : List (List U8)) (srcLinesize : List Nat) : Rust Frame :=
  match f.kind with
  | .Audio _ => .error .unimplemented
  | .Video v => do
    let planes ← o.copyIn v.width v.height f.planes src srcLinesize v.format.comp_info
    return { f with planes }

end Arith

/-! ### the checked arithmetic gives the model -/

theorem checked_sumDepth (cs : List (Option Chromaton)) : ∀ d, checked.sumDepth d cs = Formaton.sumDepth d cs := by
  induction cs with
  | nil => intro d; rfl
  | cons c cs ih =>
    intro d
    cases c with
    | none => exact ih d
    | some c =>
      simp only [Arith.sumDepth, Formaton.sumDepth, checked]
      split
      · exact ih _
      · rfl

theorem checked_sizeFrom (w h a : Nat) (cs : List (Option Chromaton)) :
    ∀ s, checked.sizeFrom w h a s cs = VideoInfo.sizeFrom w h a s cs := by
  induction cs with
  | nil => intro s; rfl
  | cons c cs ih =>
    intro s
    cases c with
    | none => exact ih s
    | some c =>
      simp only [Arith.sizeFrom, VideoInfo.sizeFrom]
      rw [show checked.getDataSize c w h a = c.getDataSize w h a from rfl]
      simp only [ih]; rfl

theorem checked_videoPlanes (w h : Nat) (cs : List (Option Chromaton)) :
    ∀ b, checked.videoPlanes w h b cs = DefaultFrameBuffer.videoPlanes w h b cs := by
  induction cs with
  | nil => intro s; rfl
  | cons c cs ih =>
    intro s
    cases c with
    | none => exact ih s
    | some c => simp only [Arith.videoPlanes, DefaultFrameBuffer.videoPlanes, ih]; rfl

theorem checked_audioPlanes (a : AudioInfo) (n : Nat) :
    ∀ b, checked.audioPlanes a b n = DefaultFrameBuffer.audioPlanes a b n := by
  induction n with
  | zero => intro b; rfl
  | succ n ih => intro b; simp only [Arith.audioPlanes, DefaultFrameBuffer.audioPlanes, ih]; rfl

theorem checked_copyOut (w h : Nat) : ∀ (ds : List (List U8)) ls ps cs,
    checked.copyOut w h ds ls ps cs = copyOut w h ds ls ps cs := by
  intro ds
  induction ds with
  | nil => intro ls ps cs; rfl
  | cons d ds ih =>
    intro ls ps cs
    cases ls <;> cases ps <;> cases cs <;> try rfl
    rename_i c cs
    cases c with
    | none => rfl
    | some c => simp only [Arith.copyOut, copyOut, ih]; rfl

theorem checked_copyIn (w h : Nat) : ∀ (ps : List Plane) ss ls cs,
    checked.copyIn w h ps ss ls cs = copyIn w h ps ss ls cs := by
  intro ps
  induction ps with
  | nil => intro ss ls cs; rfl
  | cons p ps ih =>
    intro ss ls cs
    cases ss <;> cases ls <;> cases cs <;> try rfl
    rename_i c cs
    cases c with
    | none => rfl
    | some c => simp only [Arith.copyIn, copyIn, ih]; rfl

/-- The model is the instance with overflow checks. -/
theorem checked_model :
    (∀ f l a, checked.getAudioSize f l a = f.getAudioSize l a) ∧
    (∀ c w, checked.getWidth c w = c.getWidth w) ∧ (∀ c h, checked.getHeight c h = c.getHeight h) ∧
    (∀ c w a, checked.getLinesize c w a = c.getLinesize w a) ∧
    (∀ c w h a, checked.getDataSize c w h a = c.getDataSize w h a) ∧
    (∀ w h fl ft fo, checked.newVideoInfo w h fl ft fo = VideoInfo.new w h fl ft fo) ∧
    (∀ v a, checked.videoSize v a = v.size a) ∧ (∀ i a, checked.audioSize i a = i.size a) ∧
    (∀ k t, checked.newDefaultFrame k t = newDefaultFrame k t) ∧
    (∀ f d l, checked.copyFrameToBuffer f d l = copyFrameToBuffer f d l) ∧
    (∀ f s l, checked.copyFromSlice f s l = copyFromSlice f s l) := by
  refine ⟨fun _ _ _ => rfl, fun _ _ => rfl, fun _ _ => rfl, fun _ _ _ => rfl, fun _ _ _ _ => rfl, ?_, ?_,
    fun _ _ => rfl, ?_, ?_, ?_⟩
  · intro w h fl ft fo
    simp only [Arith.newVideoInfo, checked_sumDepth]; rfl
  · intro v a; exact checked_sizeFrom _ _ _ _ _
  · intro k t
    have : checked.newBuffer k = DefaultFrameBuffer.new k := by
      cases k with
      | Video v =>
        simp only [Arith.newBuffer, DefaultFrameBuffer.new, Arith.videoSize, VideoInfo.size, checked_sizeFrom,
          checked_videoPlanes]
      | Audio a => simp only [Arith.newBuffer, DefaultFrameBuffer.new, checked_audioPlanes]; rfl
    simp only [Arith.newDefaultFrame, this]; rfl
  · intro f d l
    simp only [Arith.copyFrameToBuffer, copyFrameToBuffer, checked_copyOut]; rfl
  · intro f d l
    simp only [Arith.copyFromSlice, copyFromSlice, checked_copyIn]; rfl

/-! ### where nothing overflows both agree -/

/-- What `x` returns, `y` returns. -/
def Agrees {α : Type} (x y : Rust α) : Prop := ∀ v, x = .ok v → y = .ok v

theorem Agrees.refl {α : Type} (x : Rust α) : Agrees x x := fun _ h => h

theorem Agrees.bind {α β : Type} {x y : Rust α} {f g : α → Rust β} (h : Agrees x y) (hf : ∀ a, Agrees (f a) (g a)) :
    Agrees (x >>= f) (y >>= g) := by
  intro v hv
  cases x with
  | error e => cases hv
  | ok a => rw [h a rfl]; exact hf a v hv

theorem agrees_add (a b : Nat) : Agrees (checked.add a b) (wrapping.add a b) := by
  intro v h
  simp only [checked, uadd] at h
  split at h
  · cases h; simp only [wrapping]; rw [Nat.mod_eq_of_lt (by assumption)]
  · cases h

theorem agrees_add8 (a b : Nat) : Agrees (checked.add8 a b) (wrapping.add8 a b) := by
  intro v h
  simp only [checked] at h
  split at h
  · cases h; simp only [wrapping]; rw [Nat.mod_eq_of_lt (by assumption)]
  · cases h

theorem agrees_mul (a b : Nat) : Agrees (checked.mul a b) (wrapping.mul a b) := by
  intro v h
  simp only [checked, umul] at h
  split at h
  · cases h; simp only [wrapping]; rw [Nat.mod_eq_of_lt (by assumption)]
  · cases h

theorem agrees_sub (a b : Nat) : Agrees (checked.sub a b) (wrapping.sub a b) := by
  intro v h
  simp only [checked, usub] at h
  split at h
  · cases h; simp only [wrapping]; rw [if_pos (by assumption)]
  · cases h

theorem agrees_shl (a b : Nat) : Agrees (checked.shl a b) (wrapping.shl a b) := by
  intro v h
  simp only [checked, ushl] at h
  split at h
  · cases h; simp only [wrapping]; rw [Nat.mod_eq_of_lt (by assumption : b < 64)]
  · cases h

theorem agrees_shr (a b : Nat) : Agrees (checked.shr a b) (wrapping.shr a b) := by
  intro v h
  simp only [checked, ushr] at h
  split at h
  · cases h; simp only [wrapping]; rw [Nat.mod_eq_of_lt (by assumption : b < 64)]
  · cases h

/-- Each operator of `o` that returns, returns the same as that of `o'` (of `1 << s` it is asked; nothing else is shifted
left). -/
structure Arith.Agree (o o' : Arith) : Prop where
  add : ∀ a b, Agrees (o.add a b) (o'.add a b)
  sub : ∀ a b, Agrees (o.sub a b) (o'.sub a b)
  mul : ∀ a b, Agrees (o.mul a b) (o'.mul a b)
  shl : ∀ s, Agrees (o.shl 1 s) (o'.shl 1 s)
  shr : ∀ a s, Agrees (o.shr a s) (o'.shr a s)
  add8 : ∀ a b, Agrees (o.add8 a b) (o'.add8 a b)

variable {o o' : Arith}

theorem Arith.Agree.align (g : o.Agree o') (v a : Nat) : Agrees (o.align v a) (o'.align v a) :=
  (g.add v a).bind fun _ => (g.sub _ _).bind fun _ => (g.sub _ _).bind fun _ => .refl _

theorem Arith.Agree.roundToByte (g : o.Agree o') (v : Nat) : Agrees (o.roundToByte v) (o'.roundToByte v) :=
  (g.add _ _).bind fun _ => g.shr _ _

theorem Arith.Agree.getAudioSize (g : o.Agree o') (f : Soniton) (l a : Nat) :
    Agrees (o.getAudioSize f l a) (o'.getAudioSize f l a) := by
  refine .bind ?_ fun _ => g.align _ _
  split
  · exact (g.mul _ _).bind fun _ => g.roundToByte _
  · exact (g.roundToByte _).bind fun _ => g.mul _ _

theorem Arith.Agree.subsampled (g : o.Agree o') (v s : Nat) : Agrees (o.subsampled v s) (o'.subsampled v s) :=
  (g.shl _).bind fun _ => (g.sub _ _).bind fun _ => (g.add _ _).bind fun _ => g.shr _ _

theorem Arith.Agree.getLinesize (g : o.Agree o') (c : Chromaton) (w a : Nat) :
    Agrees (o.getLinesize c w a) (o'.getLinesize c w a) :=
  (g.subsampled _ _).bind fun _ => (g.mul _ _).bind fun _ => (g.add _ _).bind fun _ =>
    (g.sub _ _).bind fun _ => (g.shr _ _).bind fun _ => g.align _ _

theorem Arith.Agree.getDataSize (g : o.Agree o') (c : Chromaton) (w h a : Nat) :
    Agrees (o.getDataSize c w h a) (o'.getDataSize c w h a) :=
  (g.subsampled _ _).bind fun _ => (g.getLinesize _ _ _).bind fun _ => g.mul _ _

theorem Arith.Agree.sumDepth (g : o.Agree o') (cs : List (Option Chromaton)) :
    ∀ d, Agrees (o.sumDepth d cs) (o'.sumDepth d cs) := by
  induction cs with
  | nil => intro d; exact .refl _
  | cons c cs ih =>
    intro d
    cases c with
    | none => exact ih d
    | some c => exact (g.add8 _ _).bind fun _ => ih _

theorem Arith.Agree.sizeFrom (g : o.Agree o') (w h a : Nat) (cs : List (Option Chromaton)) :
    ∀ s, Agrees (o.sizeFrom w h a s cs) (o'.sizeFrom w h a s cs) := by
  induction cs with
  | nil => intro d; exact .refl _
  | cons c cs ih =>
    intro d
    cases c with
    | none => exact ih d
    | some c => exact (g.getDataSize _ _ _ _).bind fun _ => (g.add _ _).bind fun _ => ih _

theorem Arith.Agree.audioSize (g : o.Agree o') (i : AudioInfo) (a : Nat) : Agrees (o.audioSize i a) (o'.audioSize i a) :=
  (g.getAudioSize _ _ _).bind fun _ => g.mul _ _

theorem Arith.Agree.videoPlanes (g : o.Agree o') (w h : Nat) (cs : List (Option Chromaton)) :
    ∀ b, Agrees (o.videoPlanes w h b cs) (o'.videoPlanes w h b cs) := by
  induction cs with
  | nil => intro d; exact .refl _
  | cons c cs ih =>
    intro d
    cases c with
    | none => exact ih d
    | some c =>
      exact (g.getDataSize _ _ _ _).bind fun _ => (g.getLinesize _ _ _).bind fun _ =>
        (Agrees.refl _).bind fun _ => ih _

theorem Arith.Agree.audioPlanes (g : o.Agree o') (a : AudioInfo) (n : Nat) :
    ∀ b, Agrees (o.audioPlanes a b n) (o'.audioPlanes a b n) := by
  induction n with
  | zero => intro b; exact .refl _
  | succ n ih =>
    intro b
    exact (g.getAudioSize _ _ _).bind fun _ => (Agrees.refl _).bind fun _ => ih _

theorem Arith.Agree.newDefaultFrame (g : o.Agree o') (k : MediaKind) (t : Option TimeInfo) :
    Agrees (o.newDefaultFrame k t) (o'.newDefaultFrame k t) := by
  refine .bind ?_ fun _ => .refl _
  cases k with
  | Video v => exact (g.sizeFrom _ _ _ _ _).bind fun _ => g.videoPlanes _ _ _ _
  | Audio a =>
    refine (g.audioSize _ _).bind fun s => ?_
    simp only
    split
    · exact g.audioPlanes _ _ _
    · exact .refl _

theorem Arith.Agree.copyOut (g : o.Agree o') (w h : Nat) : ∀ (ds : List (List U8)) ls ps cs,
    Agrees (o.copyOut w h ds ls ps cs) (o'.copyOut w h ds ls ps cs) := by
  intro ds
  induction ds with
  | nil => intro ls ps cs; exact .refl _
  | cons d ds ih =>
    intro ls ps cs
    cases ls <;> cases ps <;> cases cs <;> try exact .refl _
    rename_i c cs
    cases c with
    | none => exact .refl _
    | some c =>
      exact (g.subsampled _ _).bind fun _ => (g.subsampled _ _).bind fun _ => (Agrees.refl _).bind fun _ =>
        (ih _ _ _).bind fun _ => .refl _

theorem Arith.Agree.copyIn (g : o.Agree o') (w h : Nat) : ∀ (ps : List Plane) ss ls cs,
    Agrees (o.copyIn w h ps ss ls cs) (o'.copyIn w h ps ss ls cs) := by
  intro ps
  induction ps with
  | nil => intro ss ls cs; exact .refl _
  | cons p ps ih =>
    intro ss ls cs
    cases ss <;> cases ls <;> cases cs <;> try exact .refl _
    rename_i c cs
    cases c with
    | none => exact .refl _
    | some c =>
      exact (g.subsampled _ _).bind fun _ => (g.subsampled _ _).bind fun _ => (Agrees.refl _).bind fun _ =>
        (ih _ _ _).bind fun _ => .refl _

/-- So does everything computed with them. -/
theorem Arith.Agree.all (g : o.Agree o') :
    (∀ (f : Soniton) l a, Agrees (o.getAudioSize f l a) (o'.getAudioSize f l a)) ∧
    (∀ (c : Chromaton) w, Agrees (o.getWidth c w) (o'.getWidth c w)) ∧
    (∀ (c : Chromaton) h, Agrees (o.getHeight c h) (o'.getHeight c h)) ∧
    (∀ (c : Chromaton) w a, Agrees (o.getLinesize c w a) (o'.getLinesize c w a)) ∧
    (∀ (c : Chromaton) w h a, Agrees (o.getDataSize c w h a) (o'.getDataSize c w h a)) ∧
    (∀ w h fl ft fo, Agrees (o.newVideoInfo w h fl ft fo) (o'.newVideoInfo w h fl ft fo)) ∧
    (∀ (i : VideoInfo) a, Agrees (o.videoSize i a) (o'.videoSize i a)) ∧
    (∀ (i : AudioInfo) a, Agrees (o.audioSize i a) (o'.audioSize i a)) ∧
    (∀ k t, Agrees (o.newDefaultFrame k t) (o'.newDefaultFrame k t)) ∧
    (∀ f d l, Agrees (o.copyFrameToBuffer f d l) (o'.copyFrameToBuffer f d l)) ∧
    (∀ f s l, Agrees (o.copyFromSlice f s l) (o'.copyFromSlice f s l)) := by
  refine ⟨g.getAudioSize, fun _ _ => g.subsampled _ _, fun _ _ => g.subsampled _ _,
    g.getLinesize, g.getDataSize, ?_, fun _ _ => g.sizeFrom _ _ _ _ _, g.audioSize,
    g.newDefaultFrame, ?_, ?_⟩
  · intro w h fl ft fo
    exact (g.sumDepth _ _).bind fun _ => .refl _
  · intro f d l
    unfold Arith.copyFrameToBuffer
    split
    · exact Agrees.refl _
    · exact g.copyOut _ _ _ _ _ _
  · intro f d l
    unfold Arith.copyFromSlice
    split
    · exact Agrees.refl _
    · exact (g.copyIn _ _ _ _ _ _).bind fun _ => .refl _

theorem checked_wrapping : checked.Agree wrapping :=
  ⟨agrees_add, agrees_sub, agrees_mul, agrees_shl 1, agrees_shr, agrees_add8⟩

/-- **C110.** Whatever a function of `av-data` that computes sizes returns with overflow checks, it returns without:
every theorem saying that one of them returns something holds for both builds. -/
theorem c110_agrees :
    (∀ (f : Soniton) l a v, f.getAudioSize l a = .ok v → wrapping.getAudioSize f l a = .ok v) ∧
    (∀ (c : Chromaton) w v, c.getWidth w = .ok v → wrapping.getWidth c w = .ok v) ∧
    (∀ (c : Chromaton) h v, c.getHeight h = .ok v → wrapping.getHeight c h = .ok v) ∧
    (∀ (c : Chromaton) w a v, c.getLinesize w a = .ok v → wrapping.getLinesize c w a = .ok v) ∧
    (∀ (c : Chromaton) w h a v, c.getDataSize w h a = .ok v → wrapping.getDataSize c w h a = .ok v) ∧
    (∀ w h fl ft fo v, VideoInfo.new w h fl ft fo = .ok v → wrapping.newVideoInfo w h fl ft fo = .ok v) ∧
    (∀ (i : VideoInfo) a v, i.size a = .ok v → wrapping.videoSize i a = .ok v) ∧
    (∀ (i : AudioInfo) a v, i.size a = .ok v → wrapping.audioSize i a = .ok v) ∧
    (∀ k t f, newDefaultFrame k t = .ok f → wrapping.newDefaultFrame k t = .ok f) ∧
    (∀ f d l v, copyFrameToBuffer f d l = .ok v → wrapping.copyFrameToBuffer f d l = .ok v) ∧
    (∀ f s l v, copyFromSlice f s l = .ok v → wrapping.copyFromSlice f s l = .ok v) := by
  obtain ⟨m1, m2, m3, m4, m5, m6, m7, m8, m9, m10, m11⟩ := checked_model
  simp only [← m1, ← m2, ← m3, ← m4, ← m5, ← m6, ← m7, ← m8, ← m9, ← m10, ← m11]
  exact checked_wrapping.all

example : newDefaultFrame (.Video smallVideo) none = wrapping.newDefaultFrame (.Video smallVideo) none ∧
    smallVideo.size 32 = .ok 192 ∧ (formats.U8.getAudioSize 100 32 = .ok 128) := by decide +kernel

/-! ### C111 -/

theorem AllRoomy.congr : ∀ {bufs bufs' : List (List U8)} {ls dims},
    bufs'.map (·.length) = bufs.map (·.length) → AllRoomy bufs ls dims → AllRoomy bufs' ls dims := by
  intro bufs
  induction bufs with
  | nil =>
    intro bufs' ls dims h hr
    cases bufs' with
    | nil => exact hr
    | cons => cases h
  | cons b bs ih =>
    intro bufs' ls dims h hr
    cases bufs' with
    | nil => cases h
    | cons b' bs' =>
      simp only [List.map_cons, List.cons.injEq] at h
      cases ls <;> cases dims <;> first | exact hr.elim | skip
      exact ⟨h.1 ▸ hr.1, ih h.2 hr.2⟩

/-- **C111**, partial: in full, in every build a default frame can be copied to and from buffers with the lengths and
strides of its own planes without leaving a slice. Proved for pictures whose size is a `usize`, components of at
least 8 bits. -/
theorem c111_like_shaped_partial (v : VideoInfo) (t : Option TimeInfo) (s : Nat) (hs : v.size 32 = .ok s)
    (cs : List Chromaton) (hf : v.format.comp_info = cs.map some ++ List.replicate (5 - cs.length) none)
    (hc : ∀ c ∈ cs, 8 ≤ c.depth ∧ Fits c v.width 5) (hw : 0 < v.width) :
    ∃ f, newDefaultFrame (.Video v) t = .ok f ∧ wrapping.newDefaultFrame (.Video v) t = .ok f ∧
      ∀ bufs : List (List U8), bufs.map (·.length) = f.planes.map (·.buf.length) →
        (∃ out, copyFrameToBuffer f bufs (f.planes.map (·.linesize)) = .ok out ∧
          wrapping.copyFrameToBuffer f bufs (f.planes.map (·.linesize)) = .ok out) ∧
        ∃ f', copyFromSlice f bufs (f.planes.map (·.linesize)) = .ok f' ∧
          wrapping.copyFromSlice f bufs (f.planes.map (·.linesize)) = .ok f' := by
  obtain ⟨_, _, _, _, _, _, _, _, a9, a10, a11⟩ := c110_agrees
  obtain ⟨f, dims, h1, h2, h3, h4⟩ := c49_default v t s hs cs hf hc hw
  refine ⟨f, h1, a9 _ _ _ h1, fun bufs hb => ?_⟩
  obtain ⟨⟨out, c1, _⟩, f', c2, _⟩ := c49_copies f v h2 dims h3 h4 bufs (f.planes.map (·.linesize))
    (h4.congr (by rw [hb, List.map_map]; rfl))
  exact ⟨⟨out, c1, a10 _ _ _ _ c1⟩, f', c2, a11 _ _ _ _ c2⟩

/-- A format of one component of 8 bits. -/
def gray8 : Formaton := { formats.YUV420 with
  components := 1, comp_info := [some (.new 0 0 false 8 0 0 1), none, none, none, none] }

/-- 96 columns and so many rows that the size is 2^64 + 32. -/
def tallVideo : VideoInfo := ⟨96, 192153584101141163, false, .I, gray8, 8⟩

/-- **C111** fails: the size of the picture wraps to 32, so without overflow checks the frame gets a plane of 32 bytes
with lines of 96, and copying a line into it or out of it overruns it. -/
theorem c111_fails : ∃ f, wrapping.newDefaultFrame (.Video tallVideo) none = .ok f ∧
    f.planes = [⟨List.replicate 32 0, 96⟩] ∧
    wrapping.copyFrameToBuffer f [List.replicate 32 0] [96] = .error .ub ∧
    wrapping.copyFrameToBuffer f [List.replicate 96 0] [96] = .error .ub ∧
    wrapping.copyFromSlice f [List.replicate 96 0] [96] = .error .ub ∧
    newDefaultFrame (.Video tallVideo) none = .error .overflow :=
  ⟨⟨.Video tallVideo, [⟨List.replicate 32 0, 96⟩], .default⟩, by decide +kernel⟩

/-- The same happens with dimensions of 32 bits, in 16-bit grey: a plane of 64 bytes with lines of 6871528256. -/
example : (wrapping.getLinesize (.new 0 0 false 16 0 0 1) 3435764127 32) = .ok 6871528256 ∧
    (wrapping.getDataSize (.new 0 0 false 16 0 0 1) 3435764127 2684518405 32) = .ok 64 := by decide +kernel

example : ∃ s, smallVideo.size 32 = .ok s ∧ smallVideo.format.comp_info =
      [Chromaton.yuv8 0 0 0, .yuv8 1 1 1, .yuv8 1 1 2].map some ++ List.replicate 2 none ∧
    ∀ c ∈ [Chromaton.yuv8 0 0 0, .yuv8 1 1 1, .yuv8 1 1 2], 8 ≤ c.depth ∧ Fits c smallVideo.width 5 := by
  refine ⟨_, (by decide +kernel : smallVideo.size 32 = .ok 192), by decide, ?_⟩
  intro c hc
  simp only [List.mem_cons, List.not_mem_nil, or_false] at hc
  rcases hc with rfl | rfl | rfl <;>
    exact ⟨by decide, ⟨by decide, by decide, by decide, by decide⟩⟩

end Verif.Frame
