import Verif.Mux.Props

/-!
# C124: a `Writer` is the file it writes

What a history of `write`, `flush` and `seek` on a `Writer` (muxer.rs:39-64) leaves in the file, byte by byte, and
the use muxers make of it: going back to patch a field whose value was not known when it was written.
-/

namespace Verif.Mux
open Verif Verif.Io

/-! ### specification -/

/-- `d'` is `d` with `l` at position `p`: every byte is said. -/
def Wrote (d : List U8) (p : Nat) (l : List U8) (d' : List U8) : Prop :=
  d'.length = (if l.length = 0 then d.length else max d.length (p + l.length)) ∧
  ∀ j, j < d'.length → d'[j]? =
    if p ≤ j ∧ j < p + l.length then l[j - p]? else if j < d.length then d[j]? else some 0

/-- Where a seek in a file of `len` bytes at position `p` leads. -/
inductive Leads (len p : Nat) : SeekFrom → Int → Prop
  | start (n : Nat) : Leads len p (.start n) n
  | end (d : Int) : Leads len p (.end d) (d + len)
  | current (d : Int) : Leads len p (.current d) (d + p)

/-- One call on a file (bytes, position) and its result. `fault e`: the device may fail with `e`. -/
inductive FileStep (fault : IoErr → Prop) (d : List U8) (p : Nat) : WOp → WOut → List U8 → Nat → Prop
  | write (l d' : List U8) (k : Nat) : k ≤ l.length → Wrote d p (l.take k) d' →
      FileStep fault d p (.write l) (.written k) d' (p + k)
  | flush : FileStep fault d p .flush .flushed d p
  | seek (sf : SeekFrom) (n : Nat) : Leads d.length p sf n → FileStep fault d p (.seek sf) (.pos n) d n
  | refused (sf : SeekFrom) (t : Int) : Leads d.length p sf t → t < 0 →
      FileStep fault d p (.seek sf) (.err .invalidInput) d p
  | broken (op : WOp) (e : IoErr) : fault e → FileStep fault d p op (.err e) d p

inductive FileSteps (fault : IoErr → Prop) : List U8 → Nat → List WOp → List WOut → List U8 → Nat → Prop
  | nil (d p) : FileSteps fault d p [] [] d p
  | cons {d p op o d1 p1 ops os d2 p2} : FileStep fault d p op o d1 p1 → FileSteps fault d1 p1 ops os d2 p2 →
      FileSteps fault d p (op :: ops) (o :: os) d2 p2

/-! ### proof -/

theorem wrote_overwrite (d : List U8) (p : Nat) (l : List U8) : Wrote d p l (overwrite d p l) := by
  by_cases hl : l = []
  · subst hl
    simp only [overwrite_nil, Wrote, List.length_nil, if_true, Nat.add_zero, true_and]
    intro j hj
    rw [if_neg (by omega), if_pos hj]
  · have hlen : l.length ≠ 0 := by simpa using hl
    refine ⟨by rw [overwrite_length hl, if_neg hlen], fun j hj => ?_⟩
    rw [overwrite_length hl] at hj
    rw [overwrite, if_neg hl]
    have h1 : (d.take p ++ List.replicate (p - d.length) (0 : U8)).length = p := by
      simp only [List.length_append, List.length_take, List.length_replicate]; omega
    have h2 : (d.take p ++ List.replicate (p - d.length) (0 : U8) ++ l).length = p + l.length := by
      rw [List.length_append, h1]
    by_cases ha : j < p
    · rw [if_neg (by omega), List.getElem?_append_left (by omega), List.getElem?_append_left (by omega)]
      by_cases hb : j < d.length
      · rw [if_pos hb, List.getElem?_append_left (by simp; omega), List.getElem?_take, if_pos ha]
      · rw [if_neg hb, List.getElem?_append_right (by simp; omega), List.getElem?_replicate, if_pos]
        simp only [List.length_take]; omega
    · by_cases hb : j < p + l.length
      · rw [if_pos ⟨by omega, hb⟩, List.getElem?_append_left (by omega), List.getElem?_append_right (by omega), h1]
      · rw [if_neg (by omega), if_pos (by omega), List.getElem?_append_right (by omega), h2, List.getElem?_drop]
        congr 1; omega

theorem target_leads (s : Sink) (sf : SeekFrom) : Leads s.data.length s.pos sf (s.target sf) := by
  cases sf with
  | start n => exact .start n
  | «end» d => simp only [Sink.target]; rw [Int.add_comm]; exact .end d
  | current d => simp only [Sink.target]; rw [Int.add_comm]; exact .current d

theorem file_step (w w' : Writer Sink) (op : WOp) (o : WOut) (h : wstep sinkOps w op = .ok (o, w')) :
    FileStep (fun e => ∃ k, (w.writer.script k).fail = some e) w.writer.data w.writer.pos op o
      w'.writer.data w'.writer.pos ∧ w'.writer.script = w.writer.script := by
  rcases wstep_cases h with ⟨l, k, rfl, rfl, a, -⟩ | ⟨l, e, rfl, rfl, a, -⟩ | ⟨x, rfl, a, -, hx⟩ |
    ⟨sf, n, rfl, rfl, a, -⟩ | ⟨sf, e, rfl, rfl, a, -⟩
  · simp only [sinkOps, Sink.write] at a
    split at a
    · cases a
    · simp only [Except.ok.injEq, Prod.mk.injEq] at a
      obtain ⟨rfl, a⟩ := a
      rw [← a]
      exact ⟨.write l _ _ (Nat.min_le_left _ _) (wrote_overwrite _ _ _), rfl⟩
  · simp only [sinkOps, Sink.write] at a
    split at a
    · rename_i e' he
      simp only [Except.ok.injEq, Prod.mk.injEq, Except.error.injEq] at a
      obtain ⟨rfl, a⟩ := a
      rw [← a]
      exact ⟨.broken _ _ ⟨_, he⟩, rfl⟩
    · cases a
  · simp only [sinkOps, Sink.flush] at a
    split at a
    · rename_i e' he
      simp only [Except.ok.injEq, Prod.mk.injEq] at a
      obtain ⟨rfl, a⟩ := a
      rw [← a]
      rcases hx with ⟨hx, _⟩ | ⟨e, hx, rfl⟩
      · cases hx
      · cases hx; exact ⟨.broken _ _ ⟨_, he⟩, rfl⟩
    · simp only [Except.ok.injEq, Prod.mk.injEq] at a
      obtain ⟨rfl, a⟩ := a
      rw [← a]
      rcases hx with ⟨_, rfl⟩ | ⟨e, hx, _⟩
      · exact ⟨.flush, rfl⟩
      · cases hx
  · simp only [sinkOps, Sink.seek] at a
    split at a
    · cases a
    · split at a
      · cases a
      · rename_i ht
        simp only [Except.ok.injEq, Prod.mk.injEq] at a
        obtain ⟨rfl, a⟩ := a
        rw [← a]
        refine ⟨.seek sf _ ?_, rfl⟩
        have := target_leads w.writer sf
        rwa [Int.toNat_of_nonneg (by omega)]
  · simp only [sinkOps, Sink.seek] at a
    split at a
    · rename_i e' he
      simp only [Except.ok.injEq, Prod.mk.injEq, Except.error.injEq] at a
      obtain ⟨rfl, a⟩ := a
      rw [← a]
      exact ⟨.broken _ _ ⟨_, he⟩, rfl⟩
    · split at a
      · rename_i ht
        simp only [Except.ok.injEq, Prod.mk.injEq, Except.error.injEq] at a
        obtain ⟨rfl, a⟩ := a
        rw [← a]
        exact ⟨.refused sf _ (target_leads w.writer sf) ht, rfl⟩
      · cases a

/-- C124, part 1: every history of a `Writer` is one of the file: each byte of the file, its position and each
result are those of the calls; failed calls leave the file as it was. -/
theorem c124_file (ops : List WOp) (os : List WOut) (w w' : Writer Sink) (h : wrun sinkOps w ops = .ok (os, w')) :
    FileSteps (fun e => ∃ k, (w.writer.script k).fail = some e) w.writer.data w.writer.pos ops os
      w'.writer.data w'.writer.pos := by
  induction ops generalizing w os with
  | nil => cases h; exact .nil _ _
  | cons op ops ih =>
    simp only [wrun] at h
    cases h1 : wstep sinkOps w op with
    | error e => rw [h1] at h; cases h
    | ok v =>
      obtain ⟨o, w1⟩ := v
      simp only [h1, ok_bind] at h
      cases h2 : wrun sinkOps w1 ops with
      | error e => rw [h2] at h; cases h
      | ok v =>
        obtain ⟨os', w2⟩ := v
        simp only [h2, ok_bind, pure_eq_ok] at h
        cases h
        obtain ⟨s1, s2⟩ := file_step _ _ _ _ h1
        have := ih _ _ h2
        rw [s2] at this
        exact .cons s1 this

/-- Histories never panic: only the sink could. -/
theorem c124_total (ops : List WOp) (w : Writer Sink) : ∃ os w', wrun sinkOps w ops = .ok (os, w') := by
  induction ops generalizing w with
  | nil => exact ⟨_, _, rfl⟩
  | cons op ops ih =>
    have : ∃ o w1, wstep sinkOps w op = .ok (o, w1) := by
      cases op with
      | write l =>
        simp only [wstep, Writer.write, sinkOps, ok_bind]
        rcases Sink.write w.writer l with ⟨x, s⟩
        cases x <;> exact ⟨_, _, rfl⟩
      | flush =>
        simp only [wstep, Writer.flush, sinkOps, ok_bind]
        rcases Sink.flush w.writer with ⟨x, s⟩
        cases x <;> exact ⟨_, _, rfl⟩
      | seek sf =>
        simp only [wstep, Writer.seek, sinkOps, ok_bind]
        rcases Sink.seek w.writer sf with ⟨x, s⟩
        cases x <;> exact ⟨_, _, rfl⟩
    obtain ⟨o, w1, h1⟩ := this
    obtain ⟨os, w2, h2⟩ := ih w1
    exact ⟨o :: os, w2, by simp only [wrun, h1, ok_bind, h2, pure_eq_ok]⟩

/-- The file a history leaves and the results are determined by how much each `write` took, where nothing fails. -/
theorem FileStep.unique {d : List U8} {p : Nat} {op : WOp} {o : WOut} {d1 d2 : List U8} {p1 p2 : Nat}
    (h1 : FileStep (fun _ => False) d p op o d1 p1) (h2 : FileStep (fun _ => False) d p op o d2 p2) :
    d1 = d2 ∧ p1 = p2 := by
  cases h1 with
  | write l d1 k hk hw =>
    cases h2 with
    | write l d2 k hk hw2 =>
      refine ⟨List.ext_getElem? fun j => ?_, rfl⟩
      by_cases hj : j < d1.length
      · rw [hw.2 j hj, hw2.2 j (by rw [hw2.1, ← hw.1]; exact hj)]
      · rw [List.getElem?_eq_none (by omega), List.getElem?_eq_none (by rw [hw2.1, ← hw.1]; omega)]
  | flush => cases h2 with | flush => exact ⟨rfl, rfl⟩
  | seek sf n hl => cases h2 with | seek _ _ _ => exact ⟨rfl, rfl⟩
  | refused sf t hl ht => cases h2 with | refused _ _ _ _ => exact ⟨rfl, rfl⟩ | broken _ _ hf => exact hf.elim
  | broken _ _ hf => exact hf.elim

/-- Overwriting what is there with as many bytes. -/
theorem overwrite_inside (a b c l : List U8) (h : l.length = b.length) :
    overwrite (a ++ b ++ c) a.length l = a ++ l ++ c := by
  by_cases hl : l = []
  · subst hl
    have : b = [] := by simpa using h.symm
    subst this; simp [overwrite_nil]
  · rw [overwrite, if_neg hl, show a.length - (a ++ b ++ c).length = 0 by simp, List.append_assoc a b c,
      List.take_left, List.replicate_zero, List.append_nil, h, ← List.drop_drop, List.drop_left, List.drop_left]

/-- C124, part 2: patching. Over a file that takes what it is given, a muxer writes a head, a placeholder and a body,
goes back over body and placeholder, writes the value, goes to the end and writes on. The file then is head, value,
body, tail, behind whatever was there; all calls succeed; and the position is the length. -/
theorem c124_patch (before head hole body value tail : List U8) (s : Sink) (hd : s.data = before) (hp : s.pos = before.length)
    (hv : value.length = hole.length)
    (hs : ∀ k, (s.script k).fail = none ∧
      (head ++ hole ++ body).length ≤ (s.script k).len ∧ tail.length ≤ (s.script k).len) :
    ∃ w, wrun sinkOps (Writer.new s) [.write (head ++ hole ++ body),
        .seek (.current (-(hole.length + body.length : Nat))), .write value, .seek (.end 0), .write tail] =
      .ok ([.written (head ++ hole ++ body).length, .pos (before.length + head.length), .written value.length,
        .pos (before ++ head ++ value ++ body).length, .written tail.length], w) ∧
      w.writer.data = before ++ head ++ value ++ body ++ tail ∧
      w.position = (before ++ head ++ value ++ body ++ tail).length := by
  obtain ⟨data, pos, script, clock, flushes⟩ := s
  simp only at hd hp hs
  subst hd; subst hp
  have hw : ∀ (d : List U8) (q c : Nat) (l : List U8), (∀ k, l.length ≤ (script k).len) →
      Sink.write ⟨d, q, script, c, flushes⟩ l =
        (.ok l.length, ⟨overwrite d q l, q + l.length, script, c + 1, flushes⟩) := by
    intro d q c l hl
    simp only [Sink.write, (hs _).1]
    rw [Nat.min_eq_left (hl _), List.take_length]
  have hk : ∀ (d : List U8) (q c n : Nat) (sf : SeekFrom), Sink.target ⟨d, q, script, c, flushes⟩ sf = n →
      Sink.seek ⟨d, q, script, c, flushes⟩ sf = (.ok n, ⟨d, n, script, c + 1, flushes⟩) := by
    intro d q c n sf ht
    simp only [Sink.seek, (hs _).1, ht]
    rw [if_neg (by omega)]
    simp
  have e1 : overwrite data data.length (head ++ hole ++ body) = (data ++ head) ++ hole ++ body := by
    rw [overwrite_end]; simp only [List.append_assoc]
  have e2 : overwrite ((data ++ head) ++ hole ++ body) (data.length + head.length) value =
      data ++ head ++ value ++ body := by
    rw [← List.length_append, overwrite_inside _ _ _ _ hv]
  have e3 : overwrite (data ++ head ++ value ++ body) (data ++ head ++ value ++ body).length tail =
      data ++ head ++ value ++ body ++ tail := overwrite_end _ _
  have l1 : ∀ k, (head ++ hole ++ body).length ≤ (script k).len := fun k => (hs k).2.1
  have l2 : ∀ k, value.length ≤ (script k).len := fun k => by
    have := l1 k
    simp only [List.length_append] at this
    omega
  have l3 : ∀ k, tail.length ≤ (script k).len := fun k => (hs k).2.2
  simp only [wrun, wstep, Writer.write, Writer.seek, Writer.new, sinkOps, ok_bind, pure_eq_ok]
  rw [hw _ _ _ _ l1]
  simp only [ok_bind, e1]
  rw [hk _ _ _ (data.length + head.length) _ (by
    simp only [Sink.target, List.length_append]; omega)]
  simp only [ok_bind]
  rw [hw _ _ _ _ l2]
  simp only [ok_bind, e2]
  rw [hk _ _ _ (data ++ head ++ value ++ body).length _ (by simp only [Sink.target]; omega)]
  simp only [ok_bind]
  rw [hw _ _ _ _ l3]
  simp only [ok_bind, e3]
  refine ⟨_, rfl, rfl, ?_⟩
  simp only [Writer.position, List.length_append]

example : ∃ w, wrun sinkOps (Writer.new ⟨[], 0, fun _ => ⟨none, 99⟩, 0, 0⟩)
    [.write ([1, 2] ++ [0, 0] ++ [3, 4, 5]), .seek (.current (-(2 + 3 : Nat))), .write [0, 3], .seek (.end 0), .write [6]] =
      .ok ([.written 7, .pos 2, .written 2, .pos 7, .written 1], w) ∧ w.writer.data = [1, 2, 0, 3, 3, 4, 5, 6] ∧
      w.position = 8 :=
  c124_patch [] [1, 2] [0, 0] [3, 4, 5] [0, 3] [6] ⟨[], 0, fun _ => ⟨none, 99⟩, 0, 0⟩ rfl rfl rfl
    (fun _ => ⟨rfl, by simp, by simp⟩)

/-- A history with faults, a gap and a refused seek. -/
example : FileSteps (fun e => ∃ k, (sampleSink.script k).fail = some e) [] 0
    [.seek (.start 2), .write [7, 8], .seek (.end (-9)), .flush] [.pos 2, .written 2, .err .invalidInput, .err (.other 1)]
    [0, 0, 7, 8] 4 :=
  match h : wrun sinkOps (Writer.new sampleSink) [.seek (.start 2), .write [7, 8], .seek (.end (-9)), .flush] with
  | .ok (_, _) => by
      have := c124_file _ _ _ _ h
      cases h
      exact this
  | .error _ => by cases h

end Verif.Mux
