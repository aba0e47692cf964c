import Verif.Frame.Exact
import Verif.Frame.Views

/-!
# C159: frames with any implementation of `FrameBuffer`, copied with any iterators

`Frame::buf` is a `Box<dyn FrameBuffer>`. The rest of the model keeps the planes such a buffer shows; here the copies
are modelled as they are written, with a buffer of any type whose methods are arbitrary functions, and with iterators
of any type.
-/

namespace Verif.Frame
open Verif Verif.Data Verif.Pixel

/-! ### model -/

/-- frame.rs:302-313: the methods of a type that implements `FrameBuffer`. Each may panic and may change the value (also
behind `&self`, by atomics or locks). `mutSlice` gives the bytes of the slice and what the value becomes when the
slice has received others. -/
structure Buffer (B : Type) where
  count : B → Rust (Nat × B)
  linesize : B → Nat → Rust (Except FrameError Nat × B)
  slice : B → Nat → Rust (Except FrameError (List U8) × B)
  mutSlice : B → Nat → Rust (Except FrameError (List U8 × (List U8 → B)))

/-- `Iterator::next` of a type of iterators -/
structure Iter (σ α : Type) where
  next : σ → Rust (Option α × σ)

/-- frame.rs:463-470, with a buffer of type `B` -/
structure Held (B : Type) where
  kind : MediaKind
  buf : B
  t : TimeInfo

/-- `Result::unwrap` -/
def unwrapR {α : Type} : Except FrameError α → Rust α
  | .ok a => .ok a
  | .error _ => .error .unwrap

/-- `Option::unwrap` -/
def unwrapO {α : Type} : Option α → Rust α
  | some a => .ok a
  | none => .error .unwrap

namespace Buffer
variable {B σ τ : Type}

/-- frame.rs:490-501: the destination and the buffer afterwards -/
def copyPlaneToBuffer (b : Buffer B) (f : Held B) (i : Nat) (dst : List U8) (dls : Nat) : Rust (List U8 × B) :=
  match f.kind with
  | .Audio _ => .error .unimplemented
  | .Video v => do
    let (src, x) ← b.slice f.buf i
    let src ← unwrapR src
    let (sls, x) ← b.linesize x i
    let sls ← unwrapR sls
    let d ← copyPlane dst dls src sls v.width v.height
    return (d, x)

/-- frame.rs:511-523: the loop. `Zip::next` asks its first iterator first and its second only if there was an item: a
destination, its line size, the index of a plane, an entry of the format. The destinations taken are listed as they
are afterwards. -/
def outLoop (b : Buffer B) (di : Iter σ (List U8)) (li : Iter τ Nat) (w h n : Nat) :
    Nat → σ → τ → B → List (Option Chromaton) → Rust (List (List U8) × σ × τ × B)
  | i, s, t, x, cs => do
    let (d, s) ← di.next s
    match d with
    | none => return ([], s, t, x)
    | some d =>
      let (l, t) ← li.next t
      match l with
      | none => return ([d], s, t, x)
      | some l =>
        if n ≤ i then return ([d], s, t, x) else
        match cs with
        | [] => return ([d], s, t, x)
        | c :: cs =>
          let (src, x) ← b.slice x i
          let src ← unwrapR src
          let (sls, x) ← b.linesize x i
          let sls ← unwrapR sls
          let c ← unwrapO c
          let d ← copyPlane d l src sls (← c.getWidth w) (← c.getHeight h)
          let (ds, r) ← outLoop b di li w h n (i + 1) s t x cs
          return (d :: ds, r)
termination_by structural _ _ _ _ cs => cs

/-- frame.rs:503-527: the destinations taken, the iterators and the buffer afterwards -/
def copyFrameToBuffer (b : Buffer B) (di : Iter σ (List U8)) (li : Iter τ Nat) (f : Held B) (s : σ) (t : τ) :
    Rust (List (List U8) × σ × τ × B) :=
  match f.kind with
  | .Audio _ => .error .unimplemented
  | .Video v => do
    let (n, x) ← b.count f.buf
    b.outLoop di li v.width v.height n 0 s t x v.format.comp_info

/-- frame.rs:540-554: the loop, with the number of planes left and the index -/
def inLoop (b : Buffer B) (si : Iter σ (List U8)) (li : Iter τ Nat) (w h : Nat) :
    Nat → Nat → σ → τ → B → List (Option Chromaton) → Rust (σ × τ × B)
  | 0, _, s, t, x, _ => .ok (s, t, x)
  | n + 1, i, s, t, x, cs => do
    let (dls, x) ← b.linesize x i
    let dls ← unwrapR dls
    let (sls, t) ← li.next t
    let sls ← unwrapO sls
    let m ← b.mutSlice x i
    let (data, back) ← unwrapR m
    let (src, s) ← si.next s
    let src ← unwrapO src
    let c ← unwrapO cs.head?
    let c ← unwrapO c
    let d ← copyPlane data dls src sls (← c.getWidth w) (← c.getHeight h)
    inLoop b si li w h n (i + 1) s t (back d) cs.tail

/-- frame.rs:531-558: the iterators and the frame afterwards -/
def copyFromSlice (b : Buffer B) (si : Iter σ (List U8)) (li : Iter τ Nat) (f : Held B) (s : σ) (t : τ) :
    Rust (σ × τ × Held B) :=
  match f.kind with
  | .Audio _ => .error .unimplemented
  | .Video v => do
    let (n, x) ← b.count f.buf
    let (s, t, x) ← b.inLoop si li v.width v.height n 0 s t x v.format.comp_info
    return (s, t, { f with buf := x })

end Buffer

/-- frame.rs:383-406: the buffer of a default frame -/
def defaultBuffer : Buffer DefaultFrameBuffer where
  count b := .ok (b.count, b)
  linesize b i := .ok (b.linesize i, b)
  slice b i := .ok (b.asSliceInner i, b)
  mutSlice b i := .ok (match b.planes[i]? with
    | none => .error .InvalidIndex
    | some p => .ok (p.buf, fun d => { b with planes := b.planes.set i { p with buf := d } }))

/-- `vec::IntoIter` and the like: the items left. -/
def listIter (α : Type) : Iter (List α) α := ⟨fun l => .ok (l.head?, l.tail)⟩

/-! ### specification -/

/-- Values in relation `R` to a list of planes behave like it: they report its length, its line sizes and its bytes,
fail for other indices, and change a plane's bytes when they are written through the slice given. -/
structure Buffer.Lawful {B : Type} (b : Buffer B) (R : B → List Plane → Prop) : Prop where
  count : ∀ {x ps}, R x ps → ∃ x', b.count x = .ok (ps.length, x') ∧ R x' ps
  linesize : ∀ {x ps} {i : Nat} {p : Plane}, R x ps → ps[i]? = some p →
    ∃ x', b.linesize x i = .ok (.ok p.linesize, x') ∧ R x' ps
  slice : ∀ {x ps} {i : Nat} {p : Plane}, R x ps → ps[i]? = some p → ∃ x', b.slice x i = .ok (.ok p.buf, x') ∧ R x' ps
  sliceNone : ∀ {x ps} {i : Nat}, R x ps → ps[i]? = none → ∃ e x', b.slice x i = .ok (.error e, x')
  mutSlice : ∀ {x ps} {i : Nat} {p : Plane}, R x ps → ps[i]? = some p →
    ∃ back, b.mutSlice x i = .ok (.ok (p.buf, back)) ∧
      ∀ d, d.length = p.buf.length → R (back d) (ps.set i { p with buf := d })

/-- The iterator gives these items and then none. -/
def Iter.Yields {σ α : Type} (it : Iter σ α) : σ → List α → Prop
  | s, [] => ∃ s', it.next s = .ok (none, s')
  | s, a :: l => ∃ s', it.next s = .ok (some a, s') ∧ it.Yields s' l

/-! ### proofs -/

theorem copyPlane_length {dst src out : List U8} {dls sls w h : Nat} (e : copyPlane dst dls src sls w h = .ok out) :
    out.length = dst.length := by
  cases (c48_exact_partial ..).1 e with
  | done _ _ _ h _ => exact h

section
variable {B σ τ : Type} {b : Buffer B} {R : B → List Plane → Prop}

theorem outLoop_lawful (hb : b.Lawful R) {di : Iter σ (List U8)} {li : Iter τ Nat} {w h : Nat} {ps : List Plane}
    (cs : List (Option Chromaton)) : ∀ (i : Nat) (s : σ) (t : τ) (x : B) (dst : List (List U8)) (dls : List Nat),
    R x ps → di.Yields s dst → li.Yields t dls →
    match copyOut w h dst dls (ps.drop i) cs with
    | .error e => b.outLoop di li w h ps.length i s t x cs = .error e
    | .ok out => ∃ done s' t' x' rest, b.outLoop di li w h ps.length i s t x cs = .ok (done, s', t', x') ∧
        out = done ++ rest ∧ (rest = [] ∨ di.Yields s' rest) ∧ R x' ps := by
  induction cs with
  | nil =>
    intro i s t x dst dls hx hd hl
    have e0 : copyOut w h dst dls (ps.drop i) [] = .ok dst := by unfold copyOut; split <;> first | rfl | simp_all
    rw [e0]
    unfold Buffer.outLoop
    cases dst with
    | nil =>
      obtain ⟨s', e1⟩ := hd
      exact ⟨[], s', t, x, [], by rw [e1]; rfl, rfl, .inl rfl, hx⟩
    | cons d ds =>
      obtain ⟨s', e1, hd⟩ := hd
      cases dls with
      | nil =>
        obtain ⟨t', e2⟩ := hl
        exact ⟨[d], s', t', x, ds, by rw [e1]; simp only [ok_bind]; rw [e2]; rfl, rfl, .inr hd, hx⟩
      | cons l ls =>
        obtain ⟨t', e2, hl⟩ := hl
        refine ⟨[d], s', t', x, ds, ?_, rfl, .inr hd, hx⟩
        rw [e1]; simp only [ok_bind]; rw [e2]; simp only [ok_bind]
        split <;> rfl
  | cons c cs ih =>
    intro i s t x dst dls hx hd hl
    unfold Buffer.outLoop
    cases dst with
    | nil =>
      rw [show copyOut w h [] dls (ps.drop i) (c :: cs) = .ok [] by unfold copyOut; rfl]
      obtain ⟨s', e1⟩ := hd
      exact ⟨[], s', t, x, [], by rw [e1]; rfl, rfl, .inl rfl, hx⟩
    | cons d ds =>
      obtain ⟨s', e1, hd⟩ := hd
      cases dls with
      | nil =>
        rw [show copyOut w h (d :: ds) [] (ps.drop i) (c :: cs) = .ok (d :: ds) by unfold copyOut; rfl]
        obtain ⟨t', e2⟩ := hl
        exact ⟨[d], s', t', x, ds, by rw [e1]; simp only [ok_bind]; rw [e2]; rfl, rfl, .inr hd, hx⟩
      | cons l ls =>
        obtain ⟨t', e2, hl⟩ := hl
        rw [e1]; simp only [ok_bind]; rw [e2]; simp only [ok_bind]
        by_cases hi : ps.length ≤ i
        · rw [List.drop_eq_nil_of_le hi, if_pos hi]
          rw [show copyOut w h (d :: ds) (l :: ls) [] (c :: cs) = .ok (d :: ds) by unfold copyOut; rfl]
          exact ⟨[d], s', t', x, ds, rfl, rfl, .inr hd, hx⟩
        · have hp : ps[i]? = some ps[i] := List.getElem?_eq_getElem (by omega)
          obtain ⟨x1, g1, hx1⟩ := hb.slice hx hp
          obtain ⟨x2, g2, hx2⟩ := hb.linesize hx1 hp
          rw [if_neg hi, g1]; simp only [ok_bind, unwrapR]; rw [g2]; simp only [ok_bind]
          rw [List.drop_eq_getElem_cons (by omega)]
          cases c with
          | none => simp only [copyOut, unwrapO]; rfl
          | some c =>
            simp only [copyOut, unwrapO, ok_bind]
            cases hw : c.getWidth w with
            | error e => simp only [error_bind]
            | ok cw =>
            cases hh : c.getHeight h with
            | error e => simp only [ok_bind, error_bind]
            | ok ch =>
            simp only [ok_bind]
            cases hc : copyPlane d l ps[i].buf ps[i].linesize cw ch with
            | error e => simp only [error_bind]
            | ok o =>
              simp only [ok_bind]
              have := ih (i + 1) s' t' x2 ds ls hx2 hd hl
              cases ho : copyOut w h ds ls (ps.drop (i + 1)) cs with
              | error e =>
                rw [ho] at this
                simp only at this
                rw [this]
                rfl
              | ok out =>
                rw [ho] at this
                simp only at this
                obtain ⟨dn, s2, t2, x3, rest, a1, a2, a3, a4⟩ := this
                rw [a1]
                exact ⟨o :: dn, s2, t2, x3, rest, rfl, by rw [a2]; rfl, a3, a4⟩

theorem inLoop_lawful (hb : b.Lawful R) {si : Iter σ (List U8)} {li : Iter τ Nat} {w h : Nat} (todo : List Plane) :
    ∀ (before : List Plane) (s : σ) (t : τ) (x : B) (src : List (List U8)) (sls : List Nat)
      (cs : List (Option Chromaton)), R x (before ++ todo) → si.Yields s src → li.Yields t sls →
    match copyIn w h todo src sls cs with
    | .error e => b.inLoop si li w h todo.length before.length s t x cs = .error e
    | .ok qs => ∃ s' t' x', b.inLoop si li w h todo.length before.length s t x cs = .ok (s', t', x') ∧
        si.Yields s' (src.drop todo.length) ∧ li.Yields t' (sls.drop todo.length) ∧ R x' (before ++ qs) := by
  induction todo with
  | nil =>
    intro before s t x src sls cs hx hs hl
    rw [show copyIn w h [] src sls cs = .ok [] by unfold copyIn; rfl]
    exact ⟨s, t, x, rfl, hs, hl, hx⟩
  | cons p ps ih =>
    intro before s t x src sls cs hx hs hl
    have hp : (before ++ p :: ps)[before.length]? = some p := by
      rw [List.getElem?_append_right (Nat.le_refl _), Nat.sub_self]; rfl
    obtain ⟨x1, g1, hx1⟩ := hb.linesize hx hp
    obtain ⟨back, g2, hback⟩ := hb.mutSlice hx1 hp
    simp only [List.length_cons, Buffer.inLoop]
    rw [g1]; simp only [ok_bind, unwrapR]
    cases sls with
    | nil =>
      obtain ⟨t', e⟩ := hl
      rw [show copyIn w h (p :: ps) src [] cs = .error .unwrap by unfold copyIn; cases src <;> rfl, e]
      rfl
    | cons l ls =>
      obtain ⟨t', e1, hl⟩ := hl
      rw [e1]; simp only [ok_bind, unwrapO]; rw [g2]; simp only [ok_bind]
      cases src with
      | nil =>
        obtain ⟨s', e⟩ := hs
        rw [show copyIn w h (p :: ps) [] (l :: ls) cs = .error .unwrap by unfold copyIn; rfl, e]
        rfl
      | cons d ds =>
        obtain ⟨s', e2, hs⟩ := hs
        rw [e2]; simp only [ok_bind]
        cases cs with
        | nil =>
          rw [show copyIn w h (p :: ps) (d :: ds) (l :: ls) [] = .error .unwrap by unfold copyIn; rfl]
          rfl
        | cons c cs =>
          cases c with
          | none =>
            rw [show copyIn w h (p :: ps) (d :: ds) (l :: ls) (none :: cs) = .error .unwrap by unfold copyIn; rfl]
            rfl
          | some c =>
            simp only [copyIn, List.head?_cons, List.tail_cons, ok_bind]
            cases hw : c.getWidth w with
            | error e => simp only [error_bind]
            | ok cw =>
            cases hh : c.getHeight h with
            | error e => simp only [ok_bind, error_bind]
            | ok ch =>
            simp only [ok_bind]
            cases hc : copyPlane p.buf p.linesize d l cw ch with
            | error e => simp only [error_bind]
            | ok o =>
              simp only [ok_bind]
              have hset : (before ++ p :: ps).set before.length { p with buf := o } =
                  (before ++ [{ p with buf := o }]) ++ ps := by
                rw [List.set_append_right _ _ (Nat.le_refl _), Nat.sub_self, List.append_assoc]; rfl
              have := ih (before ++ [{ p with buf := o }]) s' t' (back o) ds ls cs
                (by rw [← hset]; exact hback o (copyPlane_length hc)) hs hl
              rw [List.length_append, List.length_singleton] at this
              cases ho : copyIn w h ps ds ls cs with
              | error e =>
                rw [ho] at this
                simp only at this
                rw [this]
                rfl
              | ok qs =>
                rw [ho] at this
                simp only at this
                obtain ⟨s2, t2, x3, a1, a2, a3, a4⟩ := this
                rw [a1]
                refine ⟨s2, t2, x3, rfl, a2, a3, ?_⟩
                rw [List.append_assoc] at a4
                exact a4

/-- **C159** A frame with any implementation of `FrameBuffer` that behaves like a list of planes, copied with any
iterators that give these slices and line sizes: each copy does what it does for that list of planes. It
panics likewise. `copy_frame_to_buffer` leaves to the iterator of destinations the ones it did not take.
`copy_from_slice` leaves a buffer that behaves like the planes copied, and takes one slice and one line size for
each plane. -/
theorem c159_any_buffer (hb : b.Lawful R) (f : Held B) (ps : List Plane) (hf : R f.buf ps) :
    (∀ i dst dls, match Frame.copyPlaneToBuffer ⟨f.kind, ps, f.t⟩ i dst dls with
      | .error e => b.copyPlaneToBuffer f i dst dls = .error e
      | .ok out => ∃ x', b.copyPlaneToBuffer f i dst dls = .ok (out, x') ∧ R x' ps) ∧
    (∀ (di : Iter σ (List U8)) (li : Iter τ Nat) s t dst dls, di.Yields s dst → li.Yields t dls →
      match Frame.copyFrameToBuffer ⟨f.kind, ps, f.t⟩ dst dls with
      | .error e => b.copyFrameToBuffer di li f s t = .error e
      | .ok out => ∃ done s' t' x' rest, b.copyFrameToBuffer di li f s t = .ok (done, s', t', x') ∧
          out = done ++ rest ∧ (rest = [] ∨ di.Yields s' rest) ∧ R x' ps) ∧
    (∀ (si : Iter σ (List U8)) (li : Iter τ Nat) s t src sls, si.Yields s src → li.Yields t sls →
      match Frame.copyFromSlice ⟨f.kind, ps, f.t⟩ src sls with
      | .error e => b.copyFromSlice si li f s t = .error e
      | .ok f' => ∃ s' t' x', b.copyFromSlice si li f s t = .ok (s', t', { f with buf := x' }) ∧ f'.kind = f.kind ∧
          f'.t = f.t ∧ R x' f'.planes ∧ si.Yields s' (src.drop ps.length) ∧ li.Yields t' (sls.drop ps.length)) := by
  refine ⟨fun i dst dls => ?_, fun di li s t dst dls hd hl => ?_, fun si li s t src sls hs hl => ?_⟩
  · simp only [Frame.copyPlaneToBuffer, Buffer.copyPlaneToBuffer]
    cases f.kind with
    | Audio a => rfl
    | Video v =>
      simp only
      cases hp : ps[i]? with
      | none =>
        obtain ⟨e, x', g⟩ := hb.sliceNone hf hp
        simp only [g, ok_bind, unwrapR]
        rfl
      | some p =>
        obtain ⟨x1, g1, hx1⟩ := hb.slice hf hp
        obtain ⟨x2, g2, hx2⟩ := hb.linesize hx1 hp
        simp only [g1, ok_bind, unwrapR, g2]
        cases hc : copyPlane dst dls p.buf p.linesize v.width v.height with
        | error e => rfl
        | ok o => exact ⟨x2, rfl, hx2⟩
  · simp only [Frame.copyFrameToBuffer, Buffer.copyFrameToBuffer]
    cases f.kind with
    | Audio a => rfl
    | Video v =>
      obtain ⟨x1, g1, hx1⟩ := hb.count hf
      simp only [g1, ok_bind]
      exact outLoop_lawful hb v.format.comp_info 0 s t x1 dst dls hx1 hd hl
  · simp only [Frame.copyFromSlice, Buffer.copyFromSlice]
    cases hk : f.kind with
    | Audio a => rfl
    | Video v =>
      obtain ⟨x1, g1, hx1⟩ := hb.count hf
      simp only [g1, ok_bind]
      have := inLoop_lawful (w := v.width) (h := v.height) hb ps [] s t x1 src sls v.format.comp_info hx1 hs hl
      cases hc : copyIn v.width v.height ps src sls v.format.comp_info with
      | error e =>
        rw [hc] at this
        simp only [List.length_nil] at this
        rw [this]
        rfl
      | ok qs =>
        rw [hc] at this
        simp only [List.length_nil] at this
        obtain ⟨s', t', x', a1, a2, a3, a4⟩ := this
        rw [a1]
        exact ⟨s', t', x', by rw [← hk]; rfl, rfl, rfl, a4, a2, a3⟩

end

/-- **C159** The buffer of a default frame is such an implementation, and iterators over lists give their items. -/
theorem c159_default :
    defaultBuffer.Lawful (fun b ps => b.planes = ps) ∧
    ∀ (α : Type) (l : List α), (listIter α).Yields l l := by
  refine ⟨⟨?_, ?_, ?_, ?_, ?_⟩, ?_⟩
  · rintro b ps rfl; exact ⟨b, rfl, rfl⟩
  · rintro b ps i p rfl hp
    exact ⟨b, by simp only [defaultBuffer, DefaultFrameBuffer.linesize, hp], rfl⟩
  · rintro b ps i p rfl hp
    exact ⟨b, by simp only [defaultBuffer, DefaultFrameBuffer.asSliceInner, hp], rfl⟩
  · rintro b ps i rfl hp
    exact ⟨.InvalidIndex, b, by simp only [defaultBuffer, DefaultFrameBuffer.asSliceInner, hp]⟩
  · rintro b ps i p rfl hp
    exact ⟨fun d => { b with planes := b.planes.set i { p with buf := d } }, by simp only [defaultBuffer, hp],
      fun d _ => rfl⟩
  · intro α l
    induction l with
    | nil => exact ⟨[], rfl⟩
    | cons a l ih => exact ⟨l, rfl, ih⟩

/-! ### a buffer with holes -/

/-- A buffer of an application: all planes in one vector, each with its place, length and line size, and a counter of
the calls made (an atomic, so that it also counts behind `&self`). -/
structure Joined where
  bytes : List U8
  parts : List (Nat × Nat × Nat)
  calls : Nat
  deriving DecidableEq

/-- Its methods. -/
def joinedBuffer : Buffer Joined where
  count x := .ok (x.parts.length, { x with calls := x.calls + 1 })
  linesize x i := .ok (match x.parts[i]? with
    | none => .error .InvalidIndex
    | some q => .ok q.2.2, { x with calls := x.calls + 1 })
  slice x i := .ok (match x.parts[i]? with
    | none => .error .InvalidIndex
    | some q => .ok ((x.bytes.drop q.1).take q.2.1), { x with calls := x.calls + 1 })
  mutSlice x i := .ok (match x.parts[i]? with
    | none => .error .InvalidIndex
    | some q => .ok ((x.bytes.drop q.1).take q.2.1, fun d =>
        { x with calls := x.calls + 1, bytes := x.bytes.take q.1 ++ d ++ x.bytes.drop (q.1 + q.2.1) }))

/-- Its planes. -/
def Joined.planes (x : Joined) : List Plane := x.parts.map fun q => ⟨(x.bytes.drop q.1).take q.2.1, q.2.2⟩

/-- Its planes lie in the vector and do not overlap. -/
def Joined.Apart (x : Joined) : Prop :=
  (∀ q ∈ x.parts, q.1 + q.2.1 ≤ x.bytes.length) ∧
  ∀ (i j : Nat) q r, x.parts[i]? = some q → x.parts[j]? = some r → i ≠ j →
    q.1 + q.2.1 ≤ r.1 ∨ r.1 + r.2.1 ≤ q.1

theorem splice_other {l d : List U8} {a n c m : Nat} (hd : d.length = n) (ha : a + n ≤ l.length)
    (h : a + n ≤ c ∨ c + m ≤ a) :
    ((l.take a ++ d ++ l.drop (a + n)).drop c).take m = (l.drop c).take m := by
  apply List.ext_getElem?
  intro k
  simp only [List.getElem?_take, List.getElem?_drop]
  by_cases hk : k < m
  · rw [if_pos hk, if_pos hk]
    have := splice_getElem? l d a (by omega) (c + k)
    rw [hd] at this
    rw [this]
    cases l[c + k]? with
    | none => rfl
    | some v => rw [Option.map_some, if_neg (by omega)]
  · rw [if_neg hk, if_neg hk]

theorem splice_same {l d : List U8} {a n : Nat} (hd : d.length = n) (ha : a + n ≤ l.length) :
    ((l.take a ++ d ++ l.drop (a + n)).drop a).take n = d := by
  have hta : (l.take a).length = a := by rw [List.length_take]; omega
  rw [List.append_assoc, List.drop_left' hta, List.take_left' hd]

/-- **C159** So is a buffer that keeps all planes in one vector, without overlap, and counts its calls. -/
theorem c159_joined : joinedBuffer.Lawful (fun x ps => x.Apart ∧ x.planes = ps) := by
  have hget : ∀ {x : Joined} {i : Nat} {p : Plane}, x.planes[i]? = some p →
      ∃ q, x.parts[i]? = some q ∧ p = ⟨(x.bytes.drop q.1).take q.2.1, q.2.2⟩ := by
    intro x i p hp
    simp only [Joined.planes, List.getElem?_map] at hp
    cases hq : x.parts[i]? with
    | none => rw [hq] at hp; cases hp
    | some q => rw [hq] at hp; cases hp; exact ⟨q, rfl, rfl⟩
  refine ⟨?_, ?_, ?_, ?_, ?_⟩
  · rintro x ps ⟨ha, rfl⟩
    exact ⟨{ x with calls := x.calls + 1 }, by simp [joinedBuffer, Joined.planes], ha, rfl⟩
  · rintro x ps i p ⟨ha, rfl⟩ hp
    obtain ⟨q, hq, rfl⟩ := hget hp
    exact ⟨{ x with calls := x.calls + 1 }, by simp only [joinedBuffer, hq], ha, rfl⟩
  · rintro x ps i p ⟨ha, rfl⟩ hp
    obtain ⟨q, hq, rfl⟩ := hget hp
    exact ⟨{ x with calls := x.calls + 1 }, by simp only [joinedBuffer, hq], ha, rfl⟩
  · rintro x ps i ⟨ha, rfl⟩ hp
    have hq : x.parts[i]? = none := by
      simp only [Joined.planes, List.getElem?_map] at hp
      cases hq : x.parts[i]? with
      | none => rfl
      | some q => rw [hq] at hp; cases hp
    exact ⟨.InvalidIndex, { x with calls := x.calls + 1 }, by simp only [joinedBuffer, hq]⟩
  · rintro x ps i p ⟨ha, rfl⟩ hp
    obtain ⟨q, hq, rfl⟩ := hget hp
    refine ⟨_, by simp only [joinedBuffer, hq]; rfl, ?_⟩
    intro d hd
    have hin := ha.1 q (List.mem_of_getElem? hq)
    have hd' : d.length = q.2.1 := by
      rw [hd]; simp only [List.length_take, List.length_drop]; omega
    refine ⟨⟨fun r hr => ?_, ha.2⟩, ?_⟩
    · have := ha.1 r hr
      simp only [List.length_append, List.length_take, List.length_drop]; omega
    · apply List.ext_getElem?
      intro k
      simp only [Joined.planes, List.getElem?_map, List.getElem?_set, List.length_map]
      by_cases hk : i = k
      · subst hk
        have hlt : i < x.parts.length := by rw [List.getElem?_eq_some_iff] at hq; exact hq.1
        rw [hq, if_pos rfl, if_pos hlt, Option.map_some, splice_same hd' hin]
      · rw [if_neg hk]
        cases hr : x.parts[k]? with
        | none => rfl
        | some r =>
          rw [Option.map_some, Option.map_some,
            splice_other hd' hin (ha.2 i k q r hq hr hk)]

/-! ### which calls are made -/

/-- A call of a method of the buffer. -/
inductive BufCall | count | linesize (i : Nat) | slice (i : Nat) | mutSlice (i : Nat)
  deriving DecidableEq

/-- The same buffer, noting the calls. -/
def Buffer.logged {B : Type} (b : Buffer B) : Buffer (B × List BufCall) where
  count x := do let (n, y) ← b.count x.1; return (n, y, x.2 ++ [.count])
  linesize x i := do let (r, y) ← b.linesize x.1 i; return (r, y, x.2 ++ [.linesize i])
  slice x i := do let (r, y) ← b.slice x.1 i; return (r, y, x.2 ++ [.slice i])
  mutSlice x i := do
    match ← b.mutSlice x.1 i with
    | .error e => return .error e
    | .ok (l, back) => return .ok (l, fun d => (back d, x.2 ++ [.mutSlice i]))

section
variable {B σ τ : Type} {b : Buffer B}

theorem inLoop_calls {si : Iter σ (List U8)} {li : Iter τ Nat} {w h : Nat} (n : Nat) :
    ∀ (i : Nat) (s : σ) (t : τ) (x : B × List BufCall) (cs : List (Option Chromaton)) s' t' (x' : B × List BufCall),
    b.logged.inLoop si li w h n i s t x cs = .ok (s', t', x') →
    x'.2 = x.2 ++ (List.range' i n).flatMap fun k => [.linesize k, .mutSlice k] := by
  induction n with
  | zero => intro i s t x cs s' t' x' e; cases e; simp
  | succ n ih =>
    intro i s t x cs s' t' x' e
    simp only [Buffer.inLoop, Buffer.logged] at e
    cases h1 : b.linesize x.1 i with
    | error er => rw [h1] at e; cases e
    | ok r1 =>
    obtain ⟨r1, y1⟩ := r1
    simp only [h1, ok_bind, pure_eq_ok] at e
    cases r1 with
    | error er => cases e
    | ok dls =>
    simp only [unwrapR, ok_bind] at e
    cases h2 : li.next t with
    | error er => rw [h2] at e; cases e
    | ok r2 =>
    obtain ⟨r2, t2⟩ := r2
    simp only [h2, ok_bind] at e
    cases r2 with
    | none => cases e
    | some sls =>
    simp only [unwrapO, ok_bind] at e
    cases h3 : b.mutSlice y1 i with
    | error er => rw [h3] at e; cases e
    | ok r3 =>
    simp only [h3, ok_bind] at e
    cases r3 with
    | error er => cases e
    | ok r3 =>
    obtain ⟨data, back⟩ := r3
    simp only [ok_bind] at e
    cases h4 : si.next s with
    | error er => rw [h4] at e; cases e
    | ok r4 =>
    obtain ⟨r4, s4⟩ := r4
    simp only [h4, ok_bind] at e
    cases r4 with
    | none => cases e
    | some src =>
    simp only [ok_bind] at e
    cases h5 : cs.head? with
    | none => rw [h5] at e; cases e
    | some c =>
    simp only [h5, ok_bind] at e
    cases c with
    | none => cases e
    | some c =>
    simp only [ok_bind] at e
    cases h6 : c.getWidth w with
    | error er => rw [h6] at e; cases e
    | ok cw =>
    cases h7 : c.getHeight h with
    | error er => rw [h6, h7] at e; cases e
    | ok ch =>
    simp only [h6, h7, ok_bind] at e
    cases h8 : copyPlane data dls src sls cw ch with
    | error er => rw [h8] at e; cases e
    | ok d =>
    simp only [h8, ok_bind] at e
    have := ih (i + 1) _ _ _ _ _ _ _ e
    rw [this, List.range'_succ]
    simp

theorem outLoop_calls {di : Iter σ (List U8)} {li : Iter τ Nat} {w h n : Nat} (cs : List (Option Chromaton)) :
    ∀ (i : Nat) (s : σ) (t : τ) (x : B × List BufCall) done s' t' (x' : B × List BufCall), i ≤ n →
    b.logged.outLoop di li w h n i s t x cs = .ok (done, s', t', x') →
    ∃ m, i + m ≤ n ∧ m ≤ done.length ∧ done.length ≤ m + 1 ∧
      x'.2 = x.2 ++ (List.range' i m).flatMap fun k => [.slice k, .linesize k] := by
  induction cs with
  | nil =>
    intro i s t x done s' t' x' hin e
    unfold Buffer.outLoop at e
    cases h1 : di.next s with
    | error er => rw [h1] at e; cases e
    | ok r1 =>
    obtain ⟨d, s1⟩ := r1
    simp only [h1, ok_bind] at e
    cases d with
    | none => cases e; exact ⟨0, by omega, by simp, by simp, by simp⟩
    | some d =>
    simp only at e
    cases h2 : li.next t with
    | error er => rw [h2] at e; cases e
    | ok r2 =>
    obtain ⟨l, t1⟩ := r2
    simp only [h2, ok_bind] at e
    cases l with
    | none => cases e; exact ⟨0, by omega, by simp, by simp, by simp⟩
    | some l =>
    simp only at e
    split at e <;> (cases e; exact ⟨0, by omega, by simp, by simp, by simp⟩)
  | cons c cs ih =>
    intro i s t x done s' t' x' hin e
    unfold Buffer.outLoop at e
    cases h1 : di.next s with
    | error er => rw [h1] at e; cases e
    | ok r1 =>
    obtain ⟨d, s1⟩ := r1
    simp only [h1, ok_bind] at e
    cases d with
    | none => cases e; exact ⟨0, by omega, by simp, by simp, by simp⟩
    | some d =>
    simp only at e
    cases h2 : li.next t with
    | error er => rw [h2] at e; cases e
    | ok r2 =>
    obtain ⟨l, t1⟩ := r2
    simp only [h2, ok_bind] at e
    cases l with
    | none => cases e; exact ⟨0, by omega, by simp, by simp, by simp⟩
    | some l =>
    simp only at e
    by_cases hi : n ≤ i
    · rw [if_pos hi] at e; cases e; exact ⟨0, by omega, by simp, by simp, by simp⟩
    · rw [if_neg hi] at e
      simp only [Buffer.logged] at e
      cases h3 : b.slice x.1 i with
      | error er => rw [h3] at e; cases e
      | ok r3 =>
      obtain ⟨r3, y3⟩ := r3
      simp only [h3, ok_bind, pure_eq_ok] at e
      cases r3 with
      | error er => cases e
      | ok src =>
      simp only [unwrapR, ok_bind] at e
      cases h4 : b.linesize y3 i with
      | error er => rw [h4] at e; cases e
      | ok r4 =>
      obtain ⟨r4, y4⟩ := r4
      simp only [h4, ok_bind] at e
      cases r4 with
      | error er => cases e
      | ok sls =>
      simp only [ok_bind] at e
      cases c with
      | none => cases e
      | some c =>
      simp only [unwrapO, ok_bind] at e
      cases h6 : c.getWidth w with
      | error er => rw [h6] at e; cases e
      | ok cw =>
      cases h7 : c.getHeight h with
      | error er => rw [h6, h7] at e; cases e
      | ok ch =>
      simp only [h6, h7, ok_bind] at e
      cases h8 : copyPlane d l src sls cw ch with
      | error er => rw [h8] at e; cases e
      | ok o =>
      simp only [h8, ok_bind] at e
      cases h9 : b.logged.outLoop di li w h n (i + 1) s1 t1 (y4, (x.2 ++ [.slice i]) ++ [.linesize i]) cs with
      | error er =>
        simp only [Buffer.logged, pure_eq_ok] at h9
        rw [h9] at e; cases e
      | ok r9 =>
        have h9' := h9
        simp only [Buffer.logged, pure_eq_ok] at h9
        rw [h9] at e
        obtain ⟨dn, s9, t9, x9⟩ := r9
        cases e
        obtain ⟨m, a1, a2, a3, a4⟩ := ih (i + 1) s1 t1 _ dn s' t' x' (by omega) h9'
        refine ⟨m + 1, by omega, by simpa using a2, by simpa using a3, ?_⟩
        rw [a4, List.range'_succ]
        simp

/-- **C159** Whatever the buffer is, a copy that returns has asked it for its number of planes once and then for
the line size and the bytes of the planes from the first on, of each once, and for nothing else:
`copy_from_slice` of all planes, `copy_frame_to_buffer` of no more than there are planes, and as many as it
copied. -/
theorem c159_calls (f : Held (B × List BufCall)) (h0 : f.buf.2 = []) :
    (∀ (si : Iter σ (List U8)) (li : Iter τ Nat) s t s' t' f', b.logged.copyFromSlice si li f s t = .ok (s', t', f') →
      ∃ n x, b.count f.buf.1 = .ok (n, x) ∧
        f'.buf.2 = .count :: (List.range n).flatMap fun k => [.linesize k, .mutSlice k]) ∧
    ∀ (di : Iter σ (List U8)) (li : Iter τ Nat) s t done s' t' x', b.logged.copyFrameToBuffer di li f s t = .ok (done, s', t', x') →
      ∃ n x m, b.count f.buf.1 = .ok (n, x) ∧ m ≤ n ∧ m ≤ done.length ∧ done.length ≤ m + 1 ∧
        x'.2 = .count :: (List.range m).flatMap fun k => [.slice k, .linesize k] := by
  constructor
  · intro si li s t s' t' f' e
    simp only [Buffer.copyFromSlice] at e
    cases hk : f.kind with
    | Audio a => rw [hk] at e; cases e
    | Video v =>
      rw [hk] at e
      simp only at e
      cases h1 : b.count f.buf.1 with
      | error er => simp only [Buffer.logged, h1, error_bind] at e; cases e
      | ok r =>
        obtain ⟨n, x⟩ := r
        rw [show b.logged.count f.buf = .ok (n, x, f.buf.2 ++ [.count]) by simp only [Buffer.logged, h1, ok_bind]; rfl] at e
        simp only [ok_bind] at e
        cases h2 : b.logged.inLoop si li v.width v.height n 0 s t (x, f.buf.2 ++ [.count]) v.format.comp_info with
        | error er => rw [h2] at e; cases e
        | ok r =>
          obtain ⟨s2, t2, x2⟩ := r
          rw [h2] at e
          cases e
          have := inLoop_calls n _ _ _ _ _ _ _ _ h2
          refine ⟨n, x, rfl, ?_⟩
          rw [this, h0, List.range_eq_range']
          rfl
  · intro di li s t done s' t' x' e
    simp only [Buffer.copyFrameToBuffer] at e
    cases hk : f.kind with
    | Audio a => rw [hk] at e; cases e
    | Video v =>
      rw [hk] at e
      simp only at e
      cases h1 : b.count f.buf.1 with
      | error er => simp only [Buffer.logged, h1, error_bind] at e; cases e
      | ok r =>
        obtain ⟨n, x⟩ := r
        rw [show b.logged.count f.buf = .ok (n, x, f.buf.2 ++ [.count]) by simp only [Buffer.logged, h1, ok_bind]; rfl] at e
        simp only [ok_bind] at e
        obtain ⟨m, a1, a2, a3, a4⟩ := outLoop_calls _ _ _ _ _ _ _ _ _ (Nat.zero_le n) e
        refine ⟨n, x, m, rfl, by omega, a2, a3, ?_⟩
        rw [a4, h0, List.range_eq_range']
        rfl

end

/-- Two planes of a picture in 4:0:0 with alpha, 3 by 2, in one vector with a byte between them. -/
def joinedSample : Joined := ⟨(List.range 13).map (BitVec.ofNat 8), [(0, 6, 3), (7, 6, 3)], 0⟩

/-- Two components of 8 bits. -/
def twoPlanes : VideoInfo :=
  ⟨3, 2, false, .I, { formats.YUV420 with comp_info := [some (.new 0 0 false 8 0 0 1), some (.new 0 0 false 8 0 0 1), none, none, none] }, 16⟩

example : joinedSample.Apart := by
  constructor
  · decide
  · intro i j q r hq hr hij
    have hi : i < 2 := (List.getElem?_eq_some_iff.1 hq).1
    have hj : j < 2 := (List.getElem?_eq_some_iff.1 hr).1
    have : i = 0 ∧ j = 1 ∨ i = 1 ∧ j = 0 := by omega
    rcases this with ⟨rfl, rfl⟩ | ⟨rfl, rfl⟩ <;> cases hq <;> cases hr <;> decide

example : (joinedBuffer.copyFromSlice (listIter _) (listIter _) ⟨.Video twoPlanes, joinedSample, .default⟩
      [[50, 51, 52, 53, 54, 55], [60, 61, 62, 63, 64, 65, 66, 67], [9]] [3, 4, 1]).map (fun r => (r.1, r.2.1, r.2.2.buf)) =
    .ok ([[9]], [1], ⟨[50, 51, 52, 53, 54, 55, 6, 60, 61, 62, 64, 65, 66], joinedSample.parts, 5⟩) := by decide +kernel

example : joinedBuffer.copyFrameToBuffer (listIter _) (listIter _) ⟨.Video twoPlanes, joinedSample, .default⟩
      [[0, 0, 0, 0, 0, 0], [1], [2]] [3] = .ok ([[0, 1, 2, 3, 4, 5], [1]], [[2]], [], { joinedSample with calls := 3 }) := by
  decide +kernel

example : (joinedBuffer.logged.copyFromSlice (listIter _) (listIter _) ⟨.Video twoPlanes, (joinedSample, []), .default⟩
      [[50, 51, 52, 53, 54, 55], [60, 61, 62, 63, 64, 65, 66, 67], [9]] [3, 4, 1]).map (fun r => r.2.2.buf.2) =
    .ok [.count, .linesize 0, .mutSlice 0, .linesize 1, .mutSlice 1] := by decide +kernel

end Verif.Frame
