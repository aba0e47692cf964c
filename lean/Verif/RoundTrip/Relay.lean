import Verif.RoundTrip.Recording
import Verif.RoundTrip.Transcode

/-!
# C176: transcoding with threads

C173 and C174 together: one thread demuxes, each stream is decoded and encoded again in a thread of its own, and one thread
writes the packets of all of them. Bounded channels lead from the first thread to each of the workers, and one from all the
workers to the last thread.
-/

namespace Verif.RoundTrip
open Verif Verif.Io Verif.Frame Verif.Stream Verif.Packet Verif.Demux Verif.Codec

variable {M W D R E C S T X A B V U : Type}

/-! ### threads between two others -/

/-- The threads of `net` (C173), which give out what they have through one channel to a last thread (as in C174). -/
structure Relay (X C A B V U W : Type) where
  net : Net X C A B V U
  room : Nat
  take : W → B → W
  finish : W → W
  ends : W → Bool

/-- The threads of the net, what is in the channel to the last thread, and how far this one has come. What the workers have
given out (`t.out`) is remembered for the statements only; no thread can see it. -/
structure Relayed (X C A B W : Type) where
  t : Threads X C A B
  chan : List B
  w : W
  done : Bool

/-- The item a thread of the net gives out with its next move. -/
def Net.offer (net : Net X C A B V U) (s : Threads X C A B) : Option Nat → Option B
  | none => none
  | some i =>
    match net.sink i (s.c i) with
    | .give b _ => some b
    | _ => none

/-- A thread moves: the last one, or one of the net. Who gives out an item has to wait for room in the channel; when the
last thread has ended, what is given out is dropped. -/
def Relay.move (r : Relay X C A B V U W) (s : Relayed X C A B W) : Option (Option Nat) → Option (Relayed X C A B W)
  | some a =>
    match r.net.offer s.t a with
    | none => (r.net.move s.t a).map fun t => { s with t }
    | some b =>
      if s.done ∨ r.ends s.w then (r.net.move s.t a).map fun t => { s with t }
      else if s.chan.length < r.room then (r.net.move s.t a).map fun t => { s with t, chan := s.chan ++ [b] }
      else none
  | none =>
    if s.done ∨ r.ends s.w then none
    else
      match s.chan with
      | b :: l => some { s with w := r.take s.w b, chan := l }
      | [] => if (List.range r.net.N).all fun i => match r.net.sink i (s.t.c i) with | .stop _ => true | _ => false then
          some { s with w := r.finish s.w, done := true } else none

def Relay.exec (r : Relay X C A B V U W) : List (Option (Option Nat)) → Relayed X C A B W → Option (Relayed X C A B W)
  | [], s => some s
  | a :: as, s =>
    match r.move s a with
    | some s => r.exec as s
    | none => none

/-- The channels are empty. -/
def Relayed.start (x : X) (c : Nat → C) (w : W) : Relayed X C A B W := ⟨.start x c, [], w, false⟩

/-! ### proofs -/

theorem mergesPrefix_length {N : Nat} {outs : Nat → List A} {ps : List (Nat × A)} (h : MergesPrefix N outs ps) :
    ps.length ≤ sumTo (fun i => (outs i).length) N := by
  obtain ⟨qs, hqs⟩ := merges_complete h
  have := merges_length _ _ hqs
  rw [List.length_append] at this
  omega

/-- What a move of the net adds to what has been given out. -/
theorem move_out {net : Net X C A B V U} {s s' : Threads X C A B} (a : Option Nat) (e : net.move s a = some s') :
    match net.offer s a with
    | none => s'.out = s.out
    | some b => ∃ i, a = some i ∧ i < net.N ∧ s'.out = upd s.out i (s.out i ++ [b]) := by
  cases a with
  | none =>
    simp only [Net.offer]
    simp only [Net.move] at e
    cases h : net.source s.x with
    | idle x => rw [h] at e; cases e; rfl
    | stop v => rw [h] at e; cases e
    | put i a x =>
      rw [h] at e
      simp only at e
      cases hk : net.sink i (s.c i) with
      | stop w => rw [hk] at e; cases e; rfl
      | _ =>
        rw [hk] at e
        simp only at e
        split at e
        · cases e; rfl
        · cases e
  | some i =>
    simp only [Net.move] at e
    split at e
    case isFalse => cases e
    case isTrue hi =>
    simp only [Net.offer]
    cases hk : net.sink i (s.c i) with
    | stop w => rw [hk] at e; cases e
    | idle c => rw [hk] at e; cases e; rfl
    | give b c => rw [hk] at e; cases e; exact ⟨i, rfl, hi, rfl⟩
    | need k =>
      rw [hk] at e
      simp only at e
      cases hc : s.chan i with
      | cons a l => rw [hc] at e; cases e; rfl
      | nil =>
        rw [hc] at e
        simp only at e
        cases h : net.source s.x with
        | stop v => rw [h] at e; cases e; rfl
        | idle x => rw [h] at e; cases e
        | put i a x => rw [h] at e; cases e

/-- Where the last thread is: `ps` is what it has taken. -/
def Relay.Stands (r : Relay X C A B V U W) (w0 : W) (outs : Nat → List B) (ps : List (Nat × B)) (s : Relayed X C A B W) : Prop :=
  (∃ ch, s.done = false ∧ s.w = (ps.map (·.2)).foldl r.take w0 ∧ s.chan = ch.map (·.2) ∧ (∀ y ∈ ch, y.1 < r.net.N) ∧
    ∀ i < r.net.N, s.t.out i = only i ps ++ only i ch) ∨
  (s.done = false ∧ r.ends s.w = true ∧ s.w = (ps.map (·.2)).foldl r.take w0) ∨
  (s.done = true ∧ s.w = r.finish ((ps.map (·.2)).foldl r.take w0) ∧ Merges r.net.N outs ps)

structure Relay.Left (r : Relay X C A B V U W) (w0 : W) (outs : Nat → List B) (v : V) (u : Nat → U) (t : Nat)
    (s : Relayed X C A B W) : Prop where
  inv : ∃ n ps, r.net.Left outs v u n s.t ∧ MergesPrefix r.net.N outs ps ∧ r.Stands w0 outs ps s ∧
    t + ps.length + (if s.done then 1 else 0) = n + sumTo (fun i => (outs i).length) r.net.N + 1

/-- Nothing has been given out that a thread does not give out by itself. -/
theorem left_out {net : Net X C A B V U} {outs : Nat → List B} {v : V} {u : Nat → U} {t : Nat} {s : Threads X C A B}
    (h : net.Left outs v u t s) : ∀ i < net.N, s.out i <+: outs i := by
  obtain ⟨n, ps, m, o, _, hC, _⟩ := h.inv
  exact fun i hi => ⟨o i, (hC i hi).2.symm⟩

/-- All have ended when there is nothing left. -/
theorem left_zero {net : Net X C A B V U} {outs : Nat → List B} {v : V} {u : Nat → U} {s : Threads X C A B}
    (h : net.Left outs v u 0 s) : net.source s.x = .stop v ∧ ∀ i < net.N, net.sink i (s.c i) = .stop (u i) ∧ s.out i = outs i := by
  obtain ⟨n, ps, m, o, hP, hC, ht⟩ := h.inv
  have hn : n = 0 := by omega
  have hm := sumTo_zero (m := m) (n := net.N) (by omega)
  subst hn
  cases hP with
  | stop h0 =>
    refine ⟨h0, fun i hi => ?_⟩
    obtain ⟨h1, h2⟩ := hC i hi
    rw [hm i hi] at h1
    generalize ho : o i = oi at h1 h2
    cases h1 with
    | stop h1 => exact ⟨h1, by rw [h2, List.append_nil]⟩

/-- When all workers have ended, all has been given out. -/
theorem left_stopped {net : Net X C A B V U} {outs : Nat → List B} {v : V} {u : Nat → U} {t : Nat} {s : Threads X C A B}
    (h : net.Left outs v u t s) {i : Nat} (hi : i < net.N) {w : U} (hw : net.sink i (s.c i) = .stop w) : s.out i = outs i := by
  obtain ⟨n, ps, m, o, _, hC, _⟩ := h.inv
  obtain ⟨h1, h2⟩ := hC i hi
  rw [h2, (consumes_stopped hw h1).2.1, List.append_nil]

theorem relay_move {r : Relay X C A B V U W} {w0 : W} {outs : Nat → List B} {v : V} {u : Nat → U} {t : Nat}
    {s s' : Relayed X C A B W} (h : r.Left w0 outs v u t s) (a : Option (Option Nat)) (e : r.move s a = some s') :
    ∃ t', t = t' + 1 ∧ r.Left w0 outs v u t' s' := by
  obtain ⟨n, ps, hL, hp, hS, ht⟩ := h.inv
  have hlen := mergesPrefix_length hp
  cases a with
  | none =>
    simp only [Relay.move] at e
    split at e
    · cases e
    · next hlive =>
      rw [not_or] at hlive
      rcases hS with ⟨ch, h1, h2, h3, h4, h5⟩ | ⟨_, h2, _⟩ | ⟨h1, _⟩
      · rw [h1] at ht
        cases ch with
        | cons y ch =>
          rw [h3, List.map_cons] at e
          cases e
          have hp' : MergesPrefix r.net.N outs (ps ++ [y]) := by
            refine ⟨fun z hz => ?_, fun i hi => ?_⟩
            · rcases List.mem_append.1 hz with hz | hz
              · exact hp.1 z hz
              · exact h4 z (by rw [List.mem_singleton.1 hz]; simp)
            · have := left_out hL i hi
              rw [h5 i hi, show y :: ch = [y] ++ ch from rfl, only_append, ← List.append_assoc] at this
              rw [only_append]
              exact (List.prefix_append _ _).trans this
          have hl' := mergesPrefix_length hp'
          rw [List.length_append, List.length_singleton] at hl'
          refine ⟨t - 1, by simp at ht; omega, ⟨n, ps ++ [y], hL, hp', .inl ⟨ch, h1, ?_, rfl, fun z hz => h4 z (by simp [hz]), ?_⟩, ?_⟩⟩
          · simp only [List.map_append, List.foldl_append, h2]; rfl
          · intro i hi
            rw [h5 i hi, only_append, show y :: ch = [y] ++ ch from rfl, only_append, ← List.append_assoc]
          · simp only [h1, List.length_append, List.length_singleton]
            simp at ht ⊢
            omega
        | nil =>
          rw [h3, List.map_nil] at e
          simp only at e
          split at e
          · next hall =>
            cases e
            have hm : Merges r.net.N outs ps := by
              refine ⟨hp.1, fun i hi => ?_⟩
              have hst := List.all_eq_true.1 hall i (List.mem_range.2 hi)
              cases hk : r.net.sink i (s.t.c i) with
              | stop w =>
                rw [← left_stopped hL hi hk, h5 i hi, show only i ([] : List (Nat × B)) = [] from rfl, List.append_nil]
              | _ => rw [hk] at hst; cases hst
            refine ⟨t - 1, by simp at ht; omega, ⟨n, ps, hL, hp, .inr (.inr ⟨rfl, by simp only [h2], hm⟩), ?_⟩⟩
            simp at ht ⊢
            omega
          · cases e
      · exact absurd h2 hlive.2
      · exact absurd h1 hlive.1
  | some a =>
    simp only [Relay.move] at e
    -- a move that does not touch the last channel
    have quiet : ∀ t1, r.net.move s.t a = some t1 → (r.net.offer s.t a = none ∨ s.done = true ∨ r.ends s.w = true) →
        ∃ t', t = t' + 1 ∧ r.Left w0 outs v u t' { s with t := t1 } := by
      intro t1 hm hq
      obtain ⟨n', rfl, hL'⟩ := left_move hL a hm
      refine ⟨t - 1, by split at ht <;> omega, ⟨n', ps, hL', hp, ?_, by simp only; split at ht <;> simp_all <;> omega⟩⟩
      rcases hS with ⟨ch, h1, h2, h3, h4, h5⟩ | h | h
      · rcases hq with hq | hq | hq
        · have := move_out a hm
          rw [hq] at this
          simp only at this
          exact .inl ⟨ch, h1, h2, h3, h4, by simp only [this]; exact h5⟩
        · rw [h1] at hq; cases hq
        · exact .inr (.inl ⟨h1, hq, h2⟩)
      · exact .inr (.inl h)
      · exact .inr (.inr h)
    cases hof : r.net.offer s.t a with
    | none =>
      rw [hof] at e
      simp only at e
      obtain ⟨t1, hm, rfl⟩ := Option.map_eq_some_iff.1 e
      exact quiet t1 hm (.inl hof)
    | some b =>
      rw [hof] at e
      simp only at e
      split at e
      · next hgone =>
        obtain ⟨t1, hm, rfl⟩ := Option.map_eq_some_iff.1 e
        exact quiet t1 hm (.inr hgone)
      · next hlive =>
        rw [not_or] at hlive
        split at e
        case isFalse => cases e
        case isTrue hroom =>
        obtain ⟨t1, hm, rfl⟩ := Option.map_eq_some_iff.1 e
        obtain ⟨n', rfl, hL'⟩ := left_move hL a hm
        have ho := move_out a hm
        rw [hof] at ho
        simp only at ho
        obtain ⟨i, rfl, hi, ho⟩ := ho
        refine ⟨t - 1, by split at ht <;> omega, ⟨n', ps, hL', hp, ?_, by simp only; split at ht <;> simp_all <;> omega⟩⟩
        rcases hS with ⟨ch, h1, h2, h3, h4, h5⟩ | h | h
        · refine .inl ⟨ch ++ [(i, b)], h1, h2, by simp [h3], ?_, ?_⟩
          · intro y hy
            rcases List.mem_append.1 hy with hy | hy
            · exact h4 y hy
            · rw [List.mem_singleton.1 hy]; exact hi
          · intro j hj
            simp only [ho, upd]
            rw [only_append, ← List.append_assoc]
            by_cases hij : j = i
            · subst hij
              rw [if_pos rfl, h5 j hj, only_cons_same]
              rfl
            · rw [if_neg hij, only_cons_other (fun h => hij h.symm), h5 j hj]
              simp [only]
        · exact absurd h.2.1 hlive.2
        · exact absurd h.1 hlive.1

theorem relay_exec {r : Relay X C A B V U W} {w0 : W} {outs : Nat → List B} {v : V} {u : Nat → U}
    (as : List (Option (Option Nat))) : ∀ {t : Nat} {s s' : Relayed X C A B W}, r.Left w0 outs v u t s → r.exec as s = some s' →
    ∃ t', t = t' + as.length ∧ r.Left w0 outs v u t' s' := by
  induction as with
  | nil => intro t s s' h e; cases e; exact ⟨t, rfl, h⟩
  | cons a as ih =>
    intro t s s' h e
    simp only [Relay.exec] at e
    cases hm : r.move s a with
    | none => rw [hm] at e; cases e
    | some s1 =>
      rw [hm] at e
      obtain ⟨t1, e1, h1⟩ := relay_move h a hm
      obtain ⟨t2, e2, h2⟩ := ih h1 e
      exact ⟨t2, by rw [List.length_cons]; omega, h2⟩

/-- A move of the net that nothing holds up. -/
theorem relay_free {r : Relay X C A B V U W} {s : Relayed X C A B W} {a : Option Nat} {t : Threads X C A B}
    (hm : r.net.move s.t a = some t) (hroom : s.done = true ∨ r.ends s.w = true ∨ s.chan.length < r.room) :
    ∃ s', r.move s (some a) = some s' := by
  simp only [Relay.move, hm, Option.map_some]
  split
  · exact ⟨_, rfl⟩
  · split
    · exact ⟨_, rfl⟩
    · next h =>
      rw [not_or] at h
      rcases hroom with h' | h' | h'
      · exact absurd h' h.1
      · exact absurd h' h.2
      · rw [if_pos h']; exact ⟨_, rfl⟩

/-- **C176** Whatever the threads do, and however they are scheduled: if the first thread sends the items `ps` when it runs
alone, and each worker gives out `outs i` for its items, then the last thread takes what the workers give out, that of each
worker in its order, nothing twice. Every execution ends. Where no thread can move, the first thread and all workers have
ended as they do by themselves, and the last thread has taken everything and finished, or has ended before. -/
theorem c176_schedules (r : Relay X C A B V U W) (hcap : ∀ i < r.net.N, 0 < r.net.cap i) (hroom : 0 < r.room) {n : Nat}
    {m : Nat → Nat} {x : X} {c : Nat → C} {ps : List (Nat × A)} {outs : Nat → List B} {v : V} {u : Nat → U}
    (hP : r.net.Produces n x ps v) (hC : ∀ i < r.net.N, r.net.Consumes i (m i) (c i) (only i ps) (outs i) (u i)) (w0 : W)
    (as : List (Option (Option Nat))) (s : Relayed X C A B W) (he : r.exec as (.start x c w0) = some s) :
    as.length ≤ n + sumTo m r.net.N + sumTo (fun i => (outs i).length) r.net.N + 1 ∧
    (∃ qs, MergesPrefix r.net.N outs qs ∧ (s.w = (qs.map (·.2)).foldl r.take w0 ∨
      Merges r.net.N outs qs ∧ s.done = true ∧ s.w = r.finish ((qs.map (·.2)).foldl r.take w0))) ∧
    ((∀ a, r.move s a = none) → r.net.source s.t.x = .stop v ∧ (∀ i < r.net.N, r.net.sink i (s.t.c i) = .stop (u i)) ∧
      ∃ qs, Merges r.net.N outs qs ∧ s.w = r.finish ((qs.map (·.2)).foldl r.take w0) ∨
        MergesPrefix r.net.N outs qs ∧ s.w = (qs.map (·.2)).foldl r.take w0 ∧ r.ends s.w = true) := by
  have h0 : r.Left w0 outs v u (n + sumTo m r.net.N + sumTo (fun i => (outs i).length) r.net.N + 1) (.start x c w0) :=
    ⟨n + sumTo m r.net.N, [], ⟨n, ps, m, outs, hP, fun i hi => ⟨hC i hi, rfl⟩, rfl⟩, ⟨by simp, fun i _ => List.nil_prefix⟩,
      .inl ⟨[], rfl, rfl, rfl, by simp, fun i _ => rfl⟩, by simp [Relayed.start]⟩
  obtain ⟨t, ht, h⟩ := relay_exec as h0 he
  obtain ⟨n', qs, hL, hp, hS, ht'⟩ := h.inv
  refine ⟨by omega, ⟨qs, hp, ?_⟩, fun hend => ?_⟩
  · rcases hS with ⟨ch, _, h2, _⟩ | ⟨_, _, h3⟩ | ⟨h1, h2, h3⟩
    · exact .inl h2
    · exact .inl h3
    · exact .inr ⟨h3, h1, h2⟩
  · have hz : (s.done = true ∨ r.ends s.w = true ∨ s.chan.length < r.room) → n' = 0 := by
      intro hfree
      by_cases hn : n' = 0
      · exact hn
      · obtain ⟨a, t1, hm⟩ := left_progress hcap hL hn
        obtain ⟨s', e⟩ := relay_free hm hfree
        rw [hend (some a)] at e
        cases e
    have hgone : s.done = true ∨ r.ends s.w = true := by
      rcases hS with ⟨ch, h1, h2, h3, h4, h5⟩ | ⟨_, h2, _⟩ | ⟨h1, _⟩
      · by_cases hends : r.ends s.w = true
        · exact .inr hends
        · exfalso
          have hm := hend none
          simp only [Relay.move] at hm
          rw [if_neg (by rw [h1]; simpa using hends)] at hm
          cases hc : s.chan with
          | cons b l => rw [hc] at hm; cases hm
          | nil =>
            have hn := hz (.inr (.inr (by rw [hc]; exact hroom)))
            subst hn
            obtain ⟨_, hstop⟩ := left_zero hL
            rw [hc] at hm
            simp only at hm
            rw [if_pos] at hm
            · cases hm
            · refine List.all_eq_true.2 fun i hi => ?_
              rw [(hstop i (List.mem_range.1 hi)).1]
      · exact .inr h2
      · exact .inl h1
    have hn := hz (by rcases hgone with h | h <;> simp [h])
    subst hn
    obtain ⟨hsrc, hstop⟩ := left_zero hL
    refine ⟨hsrc, fun i hi => (hstop i hi).1, qs, ?_⟩
    rcases hS with ⟨ch, h1, h2, _⟩ | ⟨_, h2, h3⟩ | ⟨_, h2, h3⟩
    · rcases hgone with hd | hd
      · rw [h1] at hd; cases hd
      · exact .inr ⟨hp, h2, hd⟩
    · exact .inr ⟨hp, h3, h2⟩
    · exact .inl ⟨h3, h2⟩

/-! ### the transcoder -/

/-- A worker: it waits for a packet, has one, or has found the channel closed; it receives frames from the decoder; it has a
frame to encode; it receives packets from the encoder, and then goes on with the frames or ends; it has a packet to send; it
flushes the encoder. (`last` says that the decoder has been flushed; `n` bounds what is received at a time.) -/
inductive Working (C E : Type)
  | wait (cd : DecContext C) (ce : EncContext E)
  | feed (p : Packet) (cd : DecContext C) (ce : EncContext E)
  | close (cd : DecContext C) (ce : EncContext E)
  | frames (last : Bool) (n : Nat) (cd : DecContext C) (ce : EncContext E)
  | encode (f : Frame) (last : Bool) (n : Nat) (cd : DecContext C) (ce : EncContext E)
  | packets (back : Option (Bool × Nat)) (n : Nat) (cd : DecContext C) (ce : EncContext E)
  | send (p : Packet) (back : Option (Bool × Nat)) (n : Nat) (cd : DecContext C) (ce : EncContext E)
  | finish (cd : DecContext C) (ce : EncContext E)

/-- `while let Ok(p) = receiver.recv() { cd.send_packet(&p)?; frames()?; } cd.flush()?; frames()?; ce.flush()?; packets()?;`
where `frames` is `loop { match cd.receive_frame() { Ok(f) => { ce.send_frame(f)?; packets()?; }, Err(MoreDataNeeded) =>
break, Err(e) => return Err(e) } }` and `packets` is `loop { match ce.receive_packet() { Ok(p) => { p.stream_index = i;
sender.send(p) }, Err(MoreDataNeeded) => break, Err(e) => return Err(e) } }` -/
def working (dc : Decoder C) (ec : Encoder E) (k i : Nat) : Working C E →
    Empties (Working C E) Packet Packet (Rust (Except AppErr Unit × DecContext C × EncContext E))
  | .wait cd ce => .need fun
    | some p => .feed p cd ce
    | none => .close cd ce
  | .feed p cd ce =>
    match cd.sendPacket dc p with
    | .error e => .stop (.error e)
    | .ok (.error e, cd) => .stop (.ok (.error (.codec e), cd, ce))
    | .ok (.ok (), cd) => .idle (.frames false k cd ce)
  | .close cd ce =>
    match cd.flush dc with
    | .error e => .stop (.error e)
    | .ok (.error e, cd) => .stop (.ok (.error (.codec e), cd, ce))
    | .ok (.ok (), cd) => .idle (.frames true k cd ce)
  | .frames _ 0 _ _ => .stop (.error .fuel)
  | .frames last (n + 1) cd ce =>
    match cd.receiveFrame dc with
    | .error e => .stop (.error e)
    | .ok (.ok f, cd) => .idle (.encode f last n cd ce)
    | .ok (.error .MoreDataNeeded, cd) => if last then .idle (.finish cd ce) else .idle (.wait cd ce)
    | .ok (.error e, cd) => .stop (.ok (.error (.codec e), cd, ce))
  | .encode f last n cd ce =>
    match ce.sendFrame ec f with
    | .error e => .stop (.error e)
    | .ok (.error e, ce) => .stop (.ok (.error (.codec e), cd, ce))
    | .ok (.ok (), ce) => .idle (.packets (some (last, n)) k cd ce)
  | .packets _ 0 _ _ => .stop (.error .fuel)
  | .packets back (n + 1) cd ce =>
    match ce.receivePacket ec with
    | .error e => .stop (.error e)
    | .ok (.ok p, ce) => .idle (.send (tag i p) back n cd ce)
    | .ok (.error .MoreDataNeeded, ce) =>
      match back with
      | some (last, j) => .idle (.frames last j cd ce)
      | none => .stop (.ok (.ok (), cd, ce))
    | .ok (.error e, ce) => .stop (.ok (.error (.codec e), cd, ce))
  | .send p back n cd ce => .give p (.packets back n cd ce)
  | .finish cd ce =>
    match ce.flush ec with
    | .error e => .stop (.error e)
    | .ok (.error e, ce) => .stop (.ok (.error (.codec e), cd, ce))
    | .ok (.ok (), ce) => .idle (.packets none k cd ce)

/-- The demuxing thread of C173, the workers, and the writing thread of C174. -/
def transcoder (dc : Decoder C) (dm : Demuxer D R) (bf : Buffered R) (fuel : Nat) (ec : Encoder E) (so : Mux.SinkOps W)
    (mx : Mux.Muxer M W) (k N : Nat) (cap : Nat → Nat) (room : Nat) :
    Relay (Reading D R) (Working C E) Packet Packet (Rust (Except AppErr Unit × Context D R))
      (Rust (Except AppErr Unit × DecContext C × EncContext E)) (Writing M W) where
  net := ⟨N, cap, reading dm bf fuel N, working dc ec k⟩
  room := room
  take := (recorder ec so mx k N room).take
  finish := (recorder ec so mx k N room).finish
  ends := (recorder ec so mx k N room).ends

/-- Where the packets of a file with `N` streams go. -/
def routed (N : Nat) (ps : List Packet) : List (Nat × Packet) :=
  ps.filterMap fun p => if 0 ≤ p.stream_index ∧ p.stream_index.toNat < N then some (p.stream_index.toNat, p) else none

/-- The packets of a stream. -/
def ofStream (i : Nat) (ps : List Packet) : List Packet := ps.filter fun p => p.stream_index = i

theorem only_routed {N i : Nat} (hi : i < N) (ps : List Packet) : only i (routed N ps) = ofStream i ps := by
  induction ps with
  | nil => rfl
  | cons p ps ih =>
    by_cases hr : 0 ≤ p.stream_index ∧ p.stream_index.toNat < N
    · have e : routed N (p :: ps) = (p.stream_index.toNat, p) :: routed N ps := by
        simp only [routed, List.filterMap_cons, if_pos hr]
      rw [e]
      by_cases h : p.stream_index = i
      · rw [show p.stream_index.toNat = i by omega, only_cons_same, ih]
        simp [ofStream, h]
      · rw [only_cons_other (by omega), ih]
        simp [ofStream, h]
    · have e : routed N (p :: ps) = routed N ps := by
        simp only [routed, List.filterMap_cons, if_neg hr]
      have h : p.stream_index ≠ i := by omega
      rw [e, ih]
      simp [ofStream, h]

section
variable {dc : Decoder C} {dmx : Demuxer D R} {bf : Buffered R} {fuel : Nat} {ec : Encoder E} {so : Mux.SinkOps W}
  {mx : Mux.Muxer M W} {k N : Nat} {cap : Nat → Nat} {room : Nat}

/-- The thread that demuxes, by itself. -/
theorem produces_events (evs : List Event) (hno : .Eof ∉ evs) : ∀ (c c' : Context D R),
    readEvents dmx bf fuel (evs.length + 1) c = .ok (evs.map .ok ++ [.ok .Eof], c') →
    ∃ n, (transcoder dc dmx bf fuel ec so mx k N cap room).net.Produces n (.read c) (routed N (packets evs)) (.ok (.ok (), c')) := by
  induction evs with
  | nil =>
    intro c c' hr
    simp only [List.length_nil, readEvents] at hr
    cases he : readEvent dmx bf fuel c with
    | error er => rw [he] at hr; cases hr
    | ok r =>
      obtain ⟨x, c1⟩ := r
      rw [he] at hr
      cases hr
      exact ⟨0, .stop (by simp only [transcoder, reading, he])⟩
  | cons ev evs ih =>
    intro c c' hr
    have hno' : Event.Eof ∉ evs := fun h => hno (by simp [h])
    have hev : ev ≠ .Eof := fun h => hno (by simp [h])
    rw [List.length_cons] at hr
    simp only [readEvents] at hr
    cases he : readEvent dmx bf fuel c with
    | error er => rw [he] at hr; cases hr
    | ok r =>
      obtain ⟨x, c1⟩ := r
      simp only [he, ok_bind] at hr
      cases he2 : readEvents dmx bf fuel (evs.length + 1) c1 with
      | error er =>
        simp only [readEvents] at he2
        rw [he2] at hr; cases hr
      | ok r =>
        obtain ⟨xs, c2⟩ := r
        have he2' := he2
        simp only [readEvents] at he2
        rw [he2] at hr
        cases hr
        obtain ⟨n, hn⟩ := ih hno' c1 c2 he2'
        cases ev with
        | Eof => exact absurd rfl hev
        | NewPacket p =>
          by_cases hidx : 0 ≤ p.stream_index ∧ p.stream_index.toNat < N
          · refine ⟨n + 1 + 1, .idle (y := .send p.stream_index.toNat p c1) (by simp only [transcoder, reading, he, if_pos hidx]) ?_⟩
            have : routed N (packets (.NewPacket p :: evs)) = (p.stream_index.toNat, p) :: routed N (packets evs) := by
              simp only [routed, packets, List.filterMap_cons, if_pos hidx]
            rw [this]
            exact .put rfl hidx.2 hn
          · refine ⟨n + 1, .idle (y := .read c1) (by simp only [transcoder, reading, he, if_neg hidx]) ?_⟩
            have : routed N (packets (.NewPacket p :: evs)) = routed N (packets evs) := by
              simp only [routed, packets, List.filterMap_cons, if_neg hidx]
            rw [this]
            exact hn
        | NewStream st => exact ⟨n + 1, .idle (by simp only [transcoder, reading, he]) hn⟩
        | MoreDataNeeded j => exact ⟨n + 1, .idle (by simp only [transcoder, reading, he]) hn⟩
        | Continue => exact ⟨n + 1, .idle (by simp only [transcoder, reading, he]) hn⟩

/-- Packets received one by one. -/
theorem consumes_packets {em : Machine S Frame Packet} {fine : Frame → Prop} {I : E → S → List Packet → Prop}
    (hE : Encodes ec em fine I) (i : Nat) (back : Option (Bool × Nat)) (l : List Packet) (o : List Packet) (cd : DecContext C)
    (s : S) (hb : ∀ e, I e s [] → match back with
      | some (last, j) => ∃ m cd' ce', (transcoder dc dmx bf fuel ec so mx k N cap room).net.Consumes i m (.frames last j cd ⟨e⟩) l o (.ok (.ok (), cd', ce'))
      | none => o = []) (q : List Packet) : ∀ (n : Nat) (e : E), q.length < n → I e s q →
    ∃ m cd' ce', (transcoder dc dmx bf fuel ec so mx k N cap room).net.Consumes i m (.packets back n cd ⟨e⟩) l (q.map (tag i) ++ o) (.ok (.ok (), cd', ce')) := by
  induction q with
  | nil =>
    intro n e hn hI
    obtain ⟨n, rfl⟩ : ∃ j, n = j + 1 := ⟨n - 1, by simp at hn; omega⟩
    obtain ⟨e', g, hI'⟩ := hE.empty hI
    have hr := hb e' hI'
    cases back with
    | none =>
      simp only at hr
      subst hr
      exact ⟨0, cd, ⟨e'⟩, .stop (by simp only [transcoder, working, EncContext.receivePacket, g, ok_bind, pure_eq_ok])⟩
    | some b =>
      obtain ⟨last, j⟩ := b
      obtain ⟨m, cd', ce', hm⟩ := hr
      exact ⟨m + 1, cd', ce', .idle (by simp only [transcoder, working, EncContext.receivePacket, g, ok_bind, pure_eq_ok]) hm⟩
  | cons p q ih =>
    intro n e hn hI
    obtain ⟨n, rfl⟩ : ∃ j, n = j + 1 := ⟨n - 1, by simp at hn; omega⟩
    obtain ⟨e', g, hI'⟩ := hE.receive hI
    obtain ⟨m, cd', ce', hm⟩ := ih n e' (by simpa using hn) hI'
    exact ⟨m + 1 + 1, cd', ce', .idle (c' := .send (tag i p) back n cd ⟨e'⟩)
      (by simp only [transcoder, working, EncContext.receivePacket, g, ok_bind, pure_eq_ok]) (.give rfl hm)⟩

/-- Frames received one by one, each of them encoded. -/
theorem consumes_frames {dm : Machine T Packet Frame} {J : C → T → List Frame → Prop} (hD : DecodesAll dc dm J)
    {em : Machine S Frame Packet} {fine : Frame → Prop} {I : E → S → List Packet → Prop} (hE : Encodes ec em fine I)
    (i : Nat) (last : Bool) (l o : List Packet) (t : T) (q : List Frame) : ∀ (n : Nat) (d : C) (e : E) (s : S), q.length < n →
    (em.steps s q).1.length < k → (∀ f ∈ q, fine f) → J d t q → I e s [] →
    (∀ d e, J d t [] → I e (em.steps s q).2 [] → ∃ m cd' ce',
      (transcoder dc dmx bf fuel ec so mx k N cap room).net.Consumes i m (if last then .finish ⟨d⟩ ⟨e⟩ else .wait ⟨d⟩ ⟨e⟩) l o (.ok (.ok (), cd', ce'))) →
    ∃ m cd' ce', (transcoder dc dmx bf fuel ec so mx k N cap room).net.Consumes i m (.frames last n ⟨d⟩ ⟨e⟩) l ((em.steps s q).1.map (tag i) ++ o) (.ok (.ok (), cd', ce')) := by
  induction q with
  | nil =>
    intro n d e s hn _ _ hJ hI hc
    obtain ⟨n, rfl⟩ : ∃ j, n = j + 1 := ⟨n - 1, by simp at hn; omega⟩
    obtain ⟨d', g, hJ'⟩ := hD.empty hJ
    obtain ⟨m, cd', ce', hm⟩ := hc d' e hJ' hI
    refine ⟨m + 1, cd', ce', .idle ?_ hm⟩
    simp only [transcoder, working, DecContext.receiveFrame, g, ok_bind, pure_eq_ok]
    split <;> rfl
  | cons f q ih =>
    intro n d e s hn hk hf hJ hI hc
    obtain ⟨n, rfl⟩ : ∃ j, n = j + 1 := ⟨n - 1, by simp at hn; omega⟩
    obtain ⟨d1, g1, hJ1⟩ := hD.receive hJ
    obtain ⟨e1, g2, hI1⟩ := hE.send hI (hf f (by simp))
    simp only [Machine.steps, List.length_append] at hk hc
    obtain ⟨m, cd', ce', hm⟩ := consumes_packets (dmx := dmx) (bf := bf) (fuel := fuel) (so := so) (mx := mx) (k := k) (N := N)
      (cap := cap) (room := room) (dc := dc) hE i (some (last, n)) l ((em.steps (em.step s f).2 q).1.map (tag i) ++ o) ⟨d1⟩ (em.step s f).2
      (fun e' hI' => ih n d1 e' _ (by simpa using hn) (by omega) (fun g hg => hf g (by simp [hg])) hJ1 hI' hc)
      (em.step s f).1 k e1 (by omega) hI1
    refine ⟨m + 1 + 1, cd', ce', .idle (c' := .encode f last n ⟨d1⟩ ⟨e⟩) ?_ (.idle (c' := .packets (some (last, n)) k ⟨d1⟩ ⟨e1⟩) ?_ ?_)⟩
    · simp only [transcoder, working, DecContext.receiveFrame, g1, ok_bind, pure_eq_ok]
    · simp only [transcoder, working, EncContext.sendFrame, g2, ok_bind, pure_eq_ok]
    · simp only [Machine.steps, List.map_append, List.append_assoc]
      exact hm

/-- A worker by itself. -/
theorem consumes_all {dm : Machine T Packet Frame} {J : C → T → List Frame → Prop} (hD : DecodesAll dc dm J)
    {em : Machine S Frame Packet} {fine : Frame → Prop} {I : E → S → List Packet → Prop} (hE : Encodes ec em fine I)
    (i : Nat) (l : List Packet) : ∀ (d : C) (t : T) (e : E) (s : S), (dm.all t l).length < k →
    (em.all s (dm.all t l)).length < k → (∀ f ∈ dm.all t l, fine f) → J d t [] → I e s [] →
    ∃ m cd' ce', (transcoder dc dmx bf fuel ec so mx k N cap room).net.Consumes i m (.wait ⟨d⟩ ⟨e⟩) l ((em.all s (dm.all t l)).map (tag i)) (.ok (.ok (), cd', ce')) := by
  induction l with
  | nil =>
    intro d t e s hk hk' hf hJ hI
    obtain ⟨d1, t1, g1, hJ1⟩ := hD.flush hJ
    have hall : em.all s (dm.all t []) = (em.steps s (dm.finish t)).1 ++ em.finish (em.steps s (dm.finish t)).2 := by
      have := all_append em (dm.finish t) [] s
      rw [List.append_nil] at this
      exact this
    rw [hall] at hk' ⊢
    rw [List.length_append] at hk'
    obtain ⟨m, cd', ce', hm⟩ := consumes_frames (dmx := dmx) (bf := bf) (fuel := fuel) (so := so) (mx := mx) (k := k) (N := N)
      (cap := cap) (room := room) hD hE i true [] ((em.finish (em.steps s (dm.finish t)).2).map (tag i)) t1 (dm.finish t) k d1 e s
      hk (by omega) hf hJ1 hI (by
        intro d2 e2 _ hI2
        obtain ⟨e3, s3, g3, hI3⟩ := hE.flush hI2
        obtain ⟨m, cd', ce', hm⟩ := consumes_packets (dmx := dmx) (bf := bf) (fuel := fuel) (so := so) (mx := mx) (k := k)
          (N := N) (cap := cap) (room := room) (dc := dc) hE i none [] [] ⟨d2⟩ s3 (fun _ _ => rfl)
          (em.finish (em.steps s (dm.finish t)).2) k e3 (by omega) hI3
        rw [List.append_nil] at hm
        exact ⟨m + 1, cd', ce', .idle (by simp only [transcoder, working, EncContext.flush, g3, ok_bind, pure_eq_ok, if_true]) hm⟩)
    rw [List.map_append]
    exact ⟨m + 1 + 1, cd', ce', .last (k := _) (by simp only [transcoder, working]; rfl)
      (.idle (by simp only [transcoder, working, DecContext.flush, g1, ok_bind, pure_eq_ok]) hm)⟩
  | cons p l ih =>
    intro d t e s hk hk' hf hJ hI
    obtain ⟨d1, g1, hJ1⟩ := hD.send p hJ
    rw [Machine.all] at hk hk' hf
    rw [all_append, List.length_append] at hk'
    rw [List.length_append] at hk
    rw [Machine.all, all_append, List.map_append]
    obtain ⟨m, cd', ce', hm⟩ := consumes_frames (dmx := dmx) (bf := bf) (fuel := fuel) (so := so) (mx := mx) (k := k) (N := N)
      (cap := cap) (room := room) hD hE i false l _ (dm.step t p).2 (dm.step t p).1 k d1 e s
      (by omega) (by omega) (fun f h => hf f (by simp [h])) hJ1 hI (fun d2 e2 hJ2 hI2 =>
        ih d2 _ e2 _ (by omega) (by omega) (fun f h => hf f (by simp [h])) hJ2 hI2)
    exact ⟨m + 1 + 1, cd', ce', .take (k := _) (by simp only [transcoder, working]; rfl)
      (.idle (by simp only [transcoder, working, DecContext.sendPacket, g1, ok_bind, pure_eq_ok]) hm)⟩

end

/-- **C176** A file with any number of streams is transcoded with threads: one demuxes, one for each stream decodes its packets
and encodes the frames again, one writes, with channels of any sizes between them. File, decoders and encoders are as in
C164. In every execution that has come to its end all threads have succeeded, and the new file is what muxing all packets
would leave that the encoders make of the frames of the streams, those of each stream in order; how the streams are
interleaved depends on the schedule. Every execution comes to its end. -/
theorem c176_transcoding (F : Format D) (hF : F.Framed) (file : List U8) (cap : Nat) (acts : Nat → Act)
    (ha : ∀ c, (acts c).fail = none) (d d' : D) (hl : Nat) (info : GlobalInfo)
    (hh : F.head d ⟨none, none, []⟩ file = some (hl, d', info)) (evs : List Event) (he : .Eof ∉ evs)
    (hv : F.events (evs.length + 1) d' info.streams (file.drop hl) = evs ++ [.Eof])
    (dc : Decoder C) (dreg : Codecs C) (dm : Nat → Machine T Packet Frame) (J : Nat → C → T → List Frame → Prop) (t0 : Nat → T)
    (hD : ∀ i < info.streams.length, DecodesAll dc (dm i) (J i))
    (hst : ∀ (j : Nat) (st : Stream), info.streams[j]? = some st → ∃ cname dd x d1 d2,
        st.params.codec_id = some cname ∧ dreg.byName cname = .ok (some dd) ∧ st.params.extradata = some x ∧
        dc.setExtradata dd.create x = .ok d1 ∧ dc.configure d1 = .ok (.ok (), d2) ∧ J j d2 (t0 j) [])
    (ec : Encoder E) (em : Nat → Machine S Frame Packet) (fine : Nat → Frame → Prop) (I : Nat → E → S → List Packet → Prop)
    (s0 : Nat → S) (e0 : Nat → E) (hE : ∀ i < info.streams.length, Encodes ec (em i) (fine i) (I i))
    (he0 : ∀ i < info.streams.length, I i (e0 i) (s0 i) [])
    (fs : Nat → List Frame) (hfs : ∀ i, fs i = (dm i).all (t0 i) (ofStream i (packets evs)))
    (hfine : ∀ i < info.streams.length, ∀ f ∈ fs i, fine i f)
    (hdr : M → List U8 × M) (pkt : M → Packet → List U8 × M) (trl : M → List U8 × M) (m : M)
    (sink : Sink) (h0 : sink.data = [] ∧ sink.pos = 0)
    (hq : ∀ c, (sink.script c).fail = none ∧ 0 < (sink.script c).len) (fuel : Nat) (hf : file.length + 2 ≤ fuel)
    (k : Nat) (hk : ∀ i < info.streams.length, (fs i).length < k ∧ ((em i).all (s0 i) (fs i)).length < k)
    (fuel' : Nat) (hfuel : ∀ ps, Merges info.streams.length (fun i => ((em i).all (s0 i) (fs i)).map (tag i)) ps →
      (Mux.fileBytes hdr pkt trl m (ps.map (·.2))).length < fuel')
    (caps : Nat → Nat) (hcaps : ∀ i, 0 < caps i) (room : Nat) (hroom : 0 < room) :
    ∃ c1 cds cm,
      readHeaders F.demuxer accBuffered fuel (Context.new d (Acc.withCapacity cap ⟨file, 0, acts, 0⟩)) = .ok (.ok (), c1) ∧
      openDecoders dc dreg c1.info.streams = .ok (.ok cds) ∧ cds.length = info.streams.length ∧
      (Mux.Context.new m (Mux.Writer.new sink)).writeHeader (Mux.bytesMuxer fuel' hdr pkt trl) = .ok (.ok (), cm) ∧
    ∀ st : Nat → Working C E, (∀ i cd, cds[i]? = some cd → st i = .wait cd ⟨e0 i⟩) →
    ∃ c2 total, ∀ as s, (transcoder dc F.demuxer accBuffered fuel ec Mux.sinkOps (Mux.bytesMuxer fuel' hdr pkt trl) k
        info.streams.length caps room).exec as (.start (.read c1) st (.ok (.ok (), cm))) = some s →
      as.length ≤ total ∧
      ((∀ a, (transcoder dc F.demuxer accBuffered fuel ec Mux.sinkOps (Mux.bytesMuxer fuel' hdr pkt trl) k
          info.streams.length caps room).move s a = none) →
        reading F.demuxer accBuffered fuel info.streams.length s.t.x = .stop (.ok (.ok (), c2)) ∧
        (∀ i < info.streams.length, ∃ cd ce, working dc ec k i (s.t.c i) = .stop (.ok (.ok (), cd, ce))) ∧
        ∃ c ps, s.w = .ok (.ok (), c) ∧ Merges info.streams.length (fun i => ((em i).all (s0 i) (fs i)).map (tag i)) ps ∧
          c.intoWriter.writer.data = Mux.fileBytes hdr pkt trl m (ps.map (·.2)) ∧
          c.intoWriter.writer.flushes = sink.flushes + 1) := by
  obtain ⟨c1, c2, a1, a2, a3⟩ := headers_events F hF file cap acts ha d d' hl info hh fuel hf (evs.length + 1)
  rw [hv, List.map_append] at a3
  obtain ⟨cds, o1, o2, o3⟩ := openDecoders_run (dc := dc) (reg := dreg) (fun j e => J j e (t0 j) []) info.streams 0 (by
    intro j st hj
    rw [Nat.zero_add]
    exact hst j st hj)
  simp only [Nat.zero_add] at o3
  obtain ⟨cm, hcm⟩ : ∃ cm, (Mux.Context.new m (Mux.Writer.new sink)).writeHeader (Mux.bytesMuxer fuel' hdr pkt trl) =
      .ok (.ok (), cm) := by
    obtain ⟨qs, hqs⟩ := merges_complete (N := info.streams.length) (outs := fun i => ((em i).all (s0 i) (fs i)).map (tag i))
      (ps := []) ⟨by simp, fun i _ => List.nil_prefix⟩
    obtain ⟨c, hm, _⟩ := Mux.c39_file fuel' hdr pkt trl m sink h0 hq _ (hfuel _ hqs)
    simp only [List.cons_append, Mux.Context.run, Mux.Context.step] at hm
    cases hh : (Mux.Context.new m (Mux.Writer.new sink)).writeHeader (Mux.bytesMuxer fuel' hdr pkt trl) with
    | error er => rw [hh] at hm; cases hm
    | ok r =>
      obtain ⟨y, cm⟩ := r
      simp only [hh, ok_bind] at hm
      cases hr1 : cm.run Mux.sinkOps (Mux.bytesMuxer fuel' hdr pkt trl) ((([] ++ qs).map fun y : Nat × Packet => y.2).map .packet ++ [.trailer]) with
      | error er => rw [hr1] at hm; cases hm
      | ok r =>
        simp only [hr1, ok_bind, pure_eq_ok, List.replicate_succ, Except.ok.injEq, Prod.mk.injEq, List.cons.injEq] at hm
        exact ⟨cm, by rw [hm.1.1]⟩
  refine ⟨c1, cds, cm, a1, by rw [a2]; exact o1, o2, hcm, fun st hstart => ?_⟩
  obtain ⟨n, hP⟩ := produces_events (dc := dc) (dmx := F.demuxer) (bf := accBuffered) (fuel := fuel) (ec := ec)
    (so := Mux.sinkOps) (mx := Mux.bytesMuxer fuel' hdr pkt trl) (k := k) (N := info.streams.length) (cap := caps) (room := room)
    evs he c1 c2 a3
  have hCex : ∀ i, ∃ mu : Nat × Rust (Except AppErr Unit × DecContext C × EncContext E), i < info.streams.length →
      (∃ cd ce, mu.2 = .ok (.ok (), cd, ce)) ∧
      (transcoder dc F.demuxer accBuffered fuel ec Mux.sinkOps (Mux.bytesMuxer fuel' hdr pkt trl) k
        info.streams.length caps room).net.Consumes i mu.1 (st i) (only i (routed info.streams.length (packets evs)))
        (((em i).all (s0 i) (fs i)).map (tag i)) mu.2 := by
    intro i
    by_cases hi : i < info.streams.length
    · obtain ⟨dd, g1, g2⟩ := o3 i hi
      obtain ⟨hk1, hk2⟩ := hk i hi
      have hfi := hfine i hi
      rw [hfs i] at hk1 hk2 hfi ⊢
      obtain ⟨m', cd', ce', hm⟩ := consumes_all (dmx := F.demuxer) (bf := accBuffered) (fuel := fuel) (so := Mux.sinkOps)
        (mx := Mux.bytesMuxer fuel' hdr pkt trl) (k := k) (N := info.streams.length) (cap := caps) (room := room)
        (hD i hi) (hE i hi) i (ofStream i (packets evs)) dd (t0 i) (e0 i) (s0 i) hk1 hk2 hfi g2 (he0 i hi)
      refine ⟨(m', .ok (.ok (), cd', ce')), fun _ => ⟨⟨cd', ce', rfl⟩, ?_⟩⟩
      rw [only_routed hi, hstart i _ g1]
      exact hm
    · exact ⟨(0, .error .fuel), fun h' => absurd h' hi⟩
  obtain ⟨mu, hC⟩ := Classical.axiomOfChoice hCex
  refine ⟨c2, n + sumTo (fun i => (mu i).1) info.streams.length +
    sumTo (fun i => (((em i).all (s0 i) (fs i)).map (tag i)).length) info.streams.length + 1, fun as s hex => ?_⟩
  obtain ⟨b1, _, b3⟩ := c176_schedules (transcoder dc F.demuxer accBuffered fuel ec Mux.sinkOps
    (Mux.bytesMuxer fuel' hdr pkt trl) k info.streams.length caps room) (fun i _ => hcaps i) hroom (m := fun i => (mu i).1)
    (u := fun i => (mu i).2) hP (fun i hi => (hC i hi).2) (.ok (.ok (), cm)) as s hex
  refine ⟨b1, fun hend => ?_⟩
  obtain ⟨b4, b5, b6⟩ := b3 hend
  refine ⟨b4, fun i hi => ?_, ?_⟩
  · obtain ⟨⟨cd, ce, e⟩, _⟩ := hC i hi
    exact ⟨cd, ce, by rw [← e]; exact b5 i hi⟩
  have hrun : ∀ ps, Merges info.streams.length (fun i => ((em i).all (s0 i) (fs i)).map (tag i)) ps →
      ∃ c, cm.run Mux.sinkOps (Mux.bytesMuxer fuel' hdr pkt trl) ((ps.map (·.2)).map .packet ++ [.trailer]) =
        .ok (List.replicate (ps.map (·.2)).length (.ok ()) ++ [.ok ()], c) ∧
        c.intoWriter.writer.data = Mux.fileBytes hdr pkt trl m (ps.map (·.2)) ∧
        c.intoWriter.writer.flushes = sink.flushes + 1 := by
    intro ps hps
    obtain ⟨c, hm, hdata, _, hflush⟩ := Mux.c39_file fuel' hdr pkt trl m sink h0 hq (ps.map (·.2)) (hfuel ps hps)
    simp only [List.cons_append, Mux.Context.run, Mux.Context.step, hcm, ok_bind] at hm
    cases hr1 : cm.run Mux.sinkOps (Mux.bytesMuxer fuel' hdr pkt trl) ((ps.map (·.2)).map .packet ++ [.trailer]) with
    | error er => rw [hr1] at hm; cases hm
    | ok r =>
      obtain ⟨ys, c'⟩ := r
      simp only [hr1, ok_bind, pure_eq_ok, List.replicate_succ, Except.ok.injEq, Prod.mk.injEq, List.cons.injEq] at hm
      obtain ⟨⟨_, hys⟩, rfl⟩ := hm
      refine ⟨c', ?_, hdata, hflush⟩
      rw [hys, ← List.replicate_succ, List.replicate_succ']
  obtain ⟨ps, ⟨hps, hc⟩ | ⟨hps, hc, hends⟩⟩ := b6
  · obtain ⟨c, hr, hdata, hflush⟩ := hrun ps hps
    obtain ⟨cm', w1, w2⟩ := written (ec := ec) (k := k) (N := info.streams.length) (cap := room) _ cm c _ _ hr
    refine ⟨c, ps, ?_, hps, hdata, hflush⟩
    rw [hc]
    simp only [transcoder]
    rw [w1]
    simp only [Mux.Context.run, Mux.Context.step] at w2
    simp only [recorder]
    cases ht : cm'.writeTrailer Mux.sinkOps (Mux.bytesMuxer fuel' hdr pkt trl) with
    | error er => rw [ht] at w2; cases w2
    | ok r =>
      obtain ⟨x, cm3⟩ := r
      rw [ht] at w2
      cases w2
      rfl
  · exfalso
    obtain ⟨qs, hqs⟩ := merges_complete hps
    obtain ⟨c, hr, _⟩ := hrun _ hqs
    rw [List.map_append, List.map_append, List.append_assoc, List.length_append, ← List.replicate_append_replicate,
      List.append_assoc] at hr
    obtain ⟨cm', w1, _⟩ := written (ec := ec) (k := k) (N := info.streams.length) (cap := room) _ cm c _ _ hr
    rw [hc] at hends
    simp only [transcoder] at hends
    rw [w1] at hends
    cases hends

/-! ### example: the file of C173's example, with the codecs of the streams exchanged -/

/-- At most `n` moves; each time the first thread of `order` moves that can. -/
def Relay.drive (r : Relay X C A B V U W) (order : List (Option (Option Nat))) :
    Nat → Relayed X C A B W → List (Option (Option Nat)) × Relayed X C A B W
  | 0, s => ([], s)
  | n + 1, s =>
    match order.findSome? (fun a => (r.move s a).map fun s => (a, s)) with
    | none => ([], s)
    | some (a, s) =>
      let q := r.drive order n s
      (a :: q.1, q.2)

/-- Stream 0 is encoded with the second codec, and stream 1 with the first. -/
def twoWorking (i : Nat) : Working (Nat × List U8 × Option Packet × List Frame) (Nat × Option Frame × List Packet) :=
  match twoOpen[i]? with
  | some cd => .wait cd ⟨(1 - i, none, [])⟩
  | none => .frames true 0 ⟨(0, [], none, [])⟩ ⟨(0, none, [])⟩

/-- The file for an order in which the threads get their turns; the number of moves, and whether all threads have ended. -/
def twoTranscoded (script : Nat → Act) (order : List (Option (Option Nat))) (room : Nat) : Option (List U8 × Nat × Bool) :=
  match (Mux.Context.new 0 (Mux.Writer.new ⟨[], 0, script, 0, 0⟩)).writeHeader (Mux.bytesMuxer 40 avHdr twoPkt avTrl) with
  | .ok (.ok (), cm) =>
    let r := transcoder twoDecoder twoFormat.demuxer accBuffered 40 twoEncoder Mux.sinkOps (Mux.bytesMuxer 40 avHdr twoPkt avTrl) 9 2
      (fun _ => 1) room
    let q := r.drive order 199 (.start (.read twoOpened) twoWorking (.ok (.ok (), cm)))
    let ended := (List.range 2).all fun i => match working twoDecoder twoEncoder 9 i (q.2.t.c i) with | .stop _ => true | _ => false
    match q.2.w with
    | .ok (.ok (), c) => some (c.intoWriter.writer.data, q.1.length, ended && q.2.done)
    | .ok (.error _, c) => some (c.intoWriter.writer.data, q.1.length, ended && !q.2.done)
    | _ => none
  | _ => none

/-- Two schedules, two files: the packets of each stream are in the same order in both. With a sink that fails from its
seventh write on, the other threads end as well. -/
example : twoTranscoded (fun k => ⟨none, 1 + k % 2⟩) [none, some none, some (some 0), some (some 1)] 1 =
      some ([65, 86, 1, 0, 7, 1, 0, 9, 1, 0, 5, 1, 1, 6, 2, 1, 8, 8, 0], 64, true) ∧
    twoTranscoded (fun k => ⟨none, 1 + k % 2⟩) [some (some 1), some none, none, some (some 0)] 2 =
      some ([65, 86, 1, 1, 6, 2, 1, 8, 8, 1, 0, 7, 1, 0, 9, 1, 0, 5, 0], 64, true) ∧
    twoTranscoded (fun k => ⟨if k < 6 then none else some (.other 5), 1⟩) [none, some none, some (some 0), some (some 1)] 1 =
      some ([65, 86, 1, 0, 7, 1], 60, true) := by
  decide +kernel

/-- The events of the file after its header. -/
def twoEvents : List Event := (twoFormat.events 5 () twoInfo.streams (twoFile.drop 2))

/-- The frames of a stream of the file. -/
def twoFilms (i : Nat) : List Frame := (whichD i).all none (ofStream i (packets twoEvents))

/-- The hypotheses of `c176_transcoding`. -/
example : twoFormat.head () ⟨none, none, []⟩ twoFile = some (2, (), twoInfo) ∧ .Eof ∉ twoEvents ∧
    twoFormat.events (twoEvents.length + 1) () twoInfo.streams (twoFile.drop 2) = twoEvents ++ [.Eof] ∧
    (∀ i < twoInfo.streams.length, Encodes twoEncoder (whichE (1 - i)) (fun _ => True) (fun e s q => e = (1 - i, s, q))) ∧
    twoFilms 0 = [pcmFrame [7], pcmFrame [9], pcmFrame [5]] ∧ twoFilms 1 = [pcmFrame [8, 8], pcmFrame [6]] ∧
    (∀ i < twoInfo.streams.length, (twoFilms i).length < 9 ∧ ((whichE (1 - i)).all none (twoFilms i)).length < 9) ∧
    (∀ ps, Merges twoInfo.streams.length (fun i => ((whichE (1 - i)).all none (twoFilms i)).map (tag i)) ps →
      (Mux.fileBytes avHdr twoPkt avTrl 0 (ps.map (·.2))).length < 40) := by
  refine ⟨rfl, by decide +kernel, by decide +kernel, fun i _ => two_encodes (1 - i), by decide +kernel, by decide +kernel,
    by decide +kernel, fun ps h => ?_⟩
  have hl := merges_length ps _ h
  have h5 : sumTo (fun i => (((whichE (1 - i)).all none (twoFilms i)).map (tag i)).length) twoInfo.streams.length = 5 := by
    decide +kernel
  have hd : ∀ i < twoInfo.streams.length, ∀ p ∈ ((whichE (1 - i)).all none (twoFilms i)).map (tag i), p.data.length ≤ 2 := by
    decide +kernel
  have := two_short (ps.map (·.2)) (avHdr 0).2 (by
    intro p hp
    obtain ⟨y, hy, rfl⟩ := List.mem_map.1 hp
    have hm := mem_only (i := y.1) (a := y.2) hy
    rw [h.2 y.1 (h.1 y hy)] at hm
    exact hd y.1 (h.1 y hy) y.2 hm)
  rw [List.length_map, hl, h5] at this
  have ht : ∀ m, (avTrl m).1.length = 1 := fun _ => rfl
  have hh : (avHdr 0).1.length = 2 := rfl
  simp only [Mux.fileBytes, List.length_append, ht, hh]
  omega

end Verif.RoundTrip
