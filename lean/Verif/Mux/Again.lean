import Verif.Mux.Props

/-!
# Property C167: writing again what could not be written

A call of the muxing context that fails may have written the beginning of what it had to write. What is in the file after any
history of calls, some of which fail, and what becomes of a file if failing calls are repeated.
-/

namespace Verif.Mux
open Verif Verif.Io Verif.Frame Verif.Stream Verif.Packet
open Verif.Demux (Err)

variable {M : Type}

/-! ### specification -/

/-- What calls write, by their results: one that succeeds all its bytes, one that fails some first of them; all
of them only if it is the trailer, of which the flushing may have failed. -/
inductive Parts (hdr : M → List U8 × M) (pkt : M → Packet → List U8 × M) (trl : M → List U8 × M) :
    M → List Op → List (Except Err Unit) → List U8 → Prop
  | nil {m} : Parts hdr pkt trl m [] [] []
  | ok {m op ops xs l} : Parts hdr pkt trl (opBytes hdr pkt trl m op).2 ops xs l →
      Parts hdr pkt trl m (op :: ops) (.ok () :: xs) ((opBytes hdr pkt trl m op).1 ++ l)
  | error {m op ops xs l e w} : w <+: (opBytes hdr pkt trl m op).1 → (w = (opBytes hdr pkt trl m op).1 → op = .trailer) →
      Parts hdr pkt trl (opBytes hdr pkt trl m op).2 ops xs l →
      Parts hdr pkt trl m (op :: ops) (.error e :: xs) (w ++ l)

/-- The calls that succeeded. -/
def succeeded : List Op → List (Except Err Unit) → List Op
  | op :: ops, .ok () :: xs => op :: succeeded ops xs
  | _ :: ops, .error _ :: xs => succeeded ops xs
  | _, _ => []

/-! ### proofs -/

theorem put_grows {fuel : Nat} {b : List U8 × M} {s : Sink} (hs : s.pos = s.data.length)
    {x : Except Err Unit} {m' : M} {w' : Writer Sink}
    (h : (do
      let (x, w) ← writeAll (Writer.write sinkOps) fuel (⟨s, s.pos⟩ : Writer Sink) b.1
      match x with
      | .ok () => .ok (.ok (), b.2, w)
      | .error e => .ok (.error (.Io e), b.2, w) : Rust (Except Err Unit × M × Writer Sink)) = .ok (x, m', w')) :
    s.data <+: w'.writer.data ∧ (∀ e, x = .error e → w'.writer.data ≠ s.data ++ b.1) := by
  rw [writer_writeAll] at h
  rcases Sink.writeAll_spec fuel s b.1 0 with ⟨h1, _⟩ | ⟨y, s', h1, _, h3, _, h5, h6⟩
  · rw [h1] at h; cases h
  · simp only [h1, ok_bind, pure_eq_ok] at h
    cases y with
    | error e =>
      cases h
      obtain ⟨_, ⟨k, d0, d1, d2⟩, _⟩ := h6 e rfl
      rw [hs, overwrite_end] at d1
      refine ⟨⟨_, d1.symm⟩, fun _ _ h => ?_⟩
      rw [show s'.data = _ from d1] at h
      have := congrArg List.length (List.append_cancel_left h)
      rw [List.length_take] at this
      omega
    | ok _ =>
      cases h
      obtain ⟨d1, d2⟩ := h5 rfl
      rw [hs, overwrite_end] at d1
      exact ⟨⟨_, d1.symm⟩, fun _ h => nomatch h⟩

theorem effect_grows {fuel : Nat} {hdr : M → List U8 × M} {pkt : M → Packet → List U8 × M} {trl : M → List U8 × M}
    {m m' : M} {s : Sink} {w' : Writer Sink} {op : Op} {x : Except Err Unit} (hs : s.pos = s.data.length)
    (h : Effect sinkOps (bytesMuxer fuel hdr pkt trl) m ⟨s, s.pos⟩ op x m' w') : s.data <+: w'.writer.data ∧
      (∀ e, x = .error e → w'.writer.data = s.data ++ (opBytes hdr pkt trl m op).1 → op = .trailer) := by
  have hflush : ∀ (w : Sink) y w', sinkOps.flush w = .ok (y, w') → w'.data = w.data := by
    intro w y w' h
    simp only [sinkOps, Sink.flush] at h
    split at h <;> cases h <;> rfl
  cases h with
  | header h => exact ⟨(put_grows hs h).1, fun e he h' => absurd h' ((put_grows hs h).2 e he)⟩
  | packet h => exact ⟨(put_grows hs h).1, fun e he h' => absurd h' ((put_grows hs h).2 e he)⟩
  | trailerFailed h => exact ⟨(put_grows hs h).1, fun _ _ _ => rfl⟩
  | trailer h h' =>
    have := (put_grows hs h).1
    simp only [hflush _ _ _ h'] at this ⊢
    exact ⟨this, by simp⟩
  | flushFailed h h' =>
    have := (put_grows hs h).1
    simp only [hflush _ _ _ h'] at this ⊢
    exact ⟨this, by simp⟩
  | configure h => cases h; exact ⟨List.prefix_rfl, fun _ h => nomatch h⟩
  | info h => cases h; exact ⟨List.prefix_rfl, fun _ h => nomatch h⟩
  | option h => cases h; exact ⟨List.prefix_rfl, fun _ h => nomatch h⟩

/-- **C167, what is in the file.** After any history of calls on any sink at its end, whatever fails: of every call in turn all its bytes
if it succeeded, and some first of them if it failed: not all of them, unless it was the trailer and the
flushing failed. -/
theorem c167_exact_partial (fuel : Nat) (hdr : M → List U8 × M) (pkt : M → Packet → List U8 × M) (trl : M → List U8 × M)
    (m : M) (s : Sink) (hs : s.pos = s.data.length) (u : Option Nat) (ops : List Op) (xs : List (Except Err Unit))
    (c : Context M Sink)
    (h : Context.run sinkOps (bytesMuxer fuel hdr pkt trl) ⟨m, ⟨s, s.pos⟩, u⟩ ops = .ok (xs, c)) :
    ∃ l, c.intoWriter.writer.data = s.data ++ l ∧ Parts hdr pkt trl m ops xs l ∧
      c.intoWriter.position = c.intoWriter.writer.data.length := by
  replace h := ((c39_calls _ _ _ _ _ _).1 h).1
  simp only at h
  simp only [Context.intoWriter, Writer.position]
  generalize c.writer = w at h
  generalize c.muxer = m' at h
  induction ops generalizing m s xs with
  | nil =>
    cases h
    exact ⟨[], by simp, .nil, hs⟩
  | cons op ops ih =>
    cases h with
    | @cons _ _ _ x m1 w1 _ xs _ _ a b =>
      obtain ⟨rfl, s1, rfl, e1, e2, e3⟩ := effect_bytes hs a
      obtain ⟨l, f1, f2, f3⟩ := ih _ s1 e1 xs b
      cases x with
      | ok y =>
        refine ⟨_, ?_, .ok f2, f3⟩
        rw [f1, e2 rfl, List.append_assoc]
      | error e =>
        obtain ⟨⟨w0, hw⟩, ht⟩ := effect_grows hs a
        simp only at hw ht
        rw [← hw] at e3 ht
        refine ⟨w0 ++ l, by rw [f1, ← hw, List.append_assoc], .error ((List.prefix_append_right_inj _).1 e3) (fun h => ?_) f2, f3⟩
        exact ht e rfl (by rw [h])

theorem Parts.stateless {hdr : M → List U8 × M} {pkt : M → Packet → List U8 × M} {trl : M → List U8 × M} {m : M}
    (hm : ∀ op, (opBytes hdr pkt trl m op).2 = m) {ops : List Op} {xs : List (Except Err Unit)} {l : List U8}
    (h : Parts hdr pkt trl m ops xs l) : (opsBytes hdr pkt trl m (succeeded ops xs)).length ≤ l.length ∧
      (l.length = (opsBytes hdr pkt trl m (succeeded ops xs)).length → l = opsBytes hdr pkt trl m (succeeded ops xs)) := by
  induction ops generalizing xs l with
  | nil => cases h; exact ⟨Nat.le_refl _, fun _ => rfl⟩
  | cons op ops ih =>
    cases h with
    | ok h =>
      rw [hm] at h
      obtain ⟨a, b⟩ := ih h
      simp only [succeeded, opsBytes, hm, List.length_append]
      exact ⟨by omega, fun hl => by rw [b (by omega)]⟩
    | @error _ _ _ _ _ _ w h1 _ h =>
      rw [hm] at h
      obtain ⟨a, b⟩ := ih h
      simp only [succeeded, List.length_append]
      refine ⟨by omega, fun hl => ?_⟩
      rw [List.eq_nil_of_length_eq_zero (by omega : w.length = 0), b (by omega)]
      rfl

/-- **C167, what is true.** If the muxer keeps no state, the file after a history in which failing calls were repeated, or left out, is
that of the calls that succeeded exactly if the position is; otherwise it is longer. -/
theorem c167_partial (fuel : Nat) (hdr : M → List U8 × M) (pkt : M → Packet → List U8 × M) (trl : M → List U8 × M)
    (m : M) (hm : ∀ op, (opBytes hdr pkt trl m op).2 = m) (s : Sink) (hs : s.pos = s.data.length) (u : Option Nat) (ops : List Op)
    (xs : List (Except Err Unit)) (c : Context M Sink)
    (h : Context.run sinkOps (bytesMuxer fuel hdr pkt trl) ⟨m, ⟨s, s.pos⟩, u⟩ ops = .ok (xs, c)) :
    (c.intoWriter.writer.data = s.data ++ opsBytes hdr pkt trl m (succeeded ops xs) ↔
      c.intoWriter.position = s.pos + (opsBytes hdr pkt trl m (succeeded ops xs)).length) ∧
    s.pos + (opsBytes hdr pkt trl m (succeeded ops xs)).length ≤ c.intoWriter.position := by
  obtain ⟨l, h1, h2, h3⟩ := c167_exact_partial fuel hdr pkt trl m s hs u ops xs c h
  obtain ⟨a, b⟩ := h2.stateless hm
  rw [h3, h1, List.length_append, hs]
  refine ⟨⟨fun h => ?_, fun h => ?_⟩, by omega⟩
  · have := List.append_cancel_left h
    rw [this]
  · rw [b (by omega)]

/-! ### the file that is spoilt -/

/-- Packets behind their lengths. -/
def lengthPkt (m : Unit) (p : Packet) : List U8 × Unit := (BitVec.ofNat 8 p.data.length :: p.data, m)

/-- The second call of the sink fails, and each takes one byte. -/
def stumbling : Sink := ⟨[], 0, fun k => ⟨if k = 1 then some (.other 5) else none, 1⟩, 0, 0⟩

/-- **C167 does not hold.** A packet of one byte behind its length: the length is written, then the sink fails. The call is repeated and
succeeds. The file begins with a packet of one byte, 1, instead of 7, and has a byte more. -/
theorem c167_fails : ∃ c, Context.run sinkOps (bytesMuxer 9 (fun m => ([], m)) lengthPkt (fun m => ([], m)))
      ⟨(), ⟨stumbling, 0⟩, none⟩ [.packet { Packet.new with data := [7] }, .packet { Packet.new with data := [7] }] =
    .ok ([.error (.Io (.other 5)), .ok ()], c) ∧
    opsBytes (fun m => ([], m)) lengthPkt (fun m => ([], m)) () [.packet { Packet.new with data := [7] }] = [1, 7] ∧
    c.intoWriter.writer.data = [1, 1, 7] := ⟨_, rfl, rfl, rfl⟩

/-- The hypotheses of `c167_exact_partial` and `c167_partial`; the sink that fails at once. -/
example : (∀ op, (opBytes (fun m => ([], m)) lengthPkt (fun m => ([], m)) () op).2 = ()) ∧
    (∃ c, Context.run sinkOps (bytesMuxer 9 (fun m => ([], m)) lengthPkt (fun m => ([], m)))
        ⟨(), ⟨{ stumbling with clock := 1 }, 0⟩, none⟩ [.packet { Packet.new with data := [7] }, .packet { Packet.new with data := [7] }] =
      .ok ([.error (.Io (.other 5)), .ok ()], c) ∧ c.intoWriter.writer.data = [1, 7] ∧ c.intoWriter.position = 2) :=
  ⟨fun _ => rfl, ⟨_, rfl, rfl, rfl⟩⟩

end Verif.Mux
