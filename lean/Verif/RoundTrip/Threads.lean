import Verif.RoundTrip.Streams

/-!
# C173: playing with threads

Contexts are `Send`, so a player may demux in one thread and decode each stream in a thread of its own. The threads
share nothing but bounded channels of packets (`std::sync::mpsc::sync_channel`, with room for at least one packet). The
player of C163 does the same in one thread. Threads are modelled by what they do next; an execution is any order of their
moves in which no thread moves that has to wait.
-/

namespace Verif.RoundTrip
open Verif Verif.Io Verif.Frame Verif.Stream Verif.Packet Verif.Demux Verif.Codec

variable {D R C X A B V U : Type}

/-! ### threads and channels -/

/-- What a thread that fills channels does next: something of its own, `senders[i].send(a)`, or it ends. -/
inductive Fills (X A V : Type)
  | idle (x : X) | put (i : Nat) (a : A) (x : X) | stop (v : V)

/-- What a thread that empties a channel does next: `receiver.recv()`, which fails when the channel is empty and its
sender is gone; it gives out an item; something of its own; or it ends. -/
inductive Empties (C A B V : Type)
  | need (k : Option A → C) | give (b : B) (c : C) | idle (c : C) | stop (v : V)

/-- One thread that fills `N` channels with room for `cap i` items each, and one behind each channel. -/
structure Net (X C A B V U : Type) where
  N : Nat
  cap : Nat → Nat
  source : X → Fills X A V
  sink : Nat → C → Empties C A B U

/-- The threads' states, what is in the channels, and what has been given out. -/
structure Threads (X C A B : Type) where
  x : X
  chan : Nat → List A
  c : Nat → C
  out : Nat → List B

/-- A thread moves: the one that fills the channels, or the one behind channel `i`. It cannot move if it has ended or has
to wait. What is sent to a thread that has ended is dropped (`send` fails, which is ignored). -/
def Net.move (net : Net X C A B V U) (s : Threads X C A B) : Option Nat → Option (Threads X C A B)
  | none =>
    match net.source s.x with
    | .idle x => some { s with x }
    | .put i a x =>
      match net.sink i (s.c i) with
      | .stop _ => some { s with x }
      | _ => if (s.chan i).length < net.cap i then some { s with x, chan := upd s.chan i (s.chan i ++ [a]) } else none
    | .stop _ => none
  | some i =>
    if i < net.N then
      match net.sink i (s.c i) with
      | .idle c => some { s with c := upd s.c i c }
      | .give b c => some { s with c := upd s.c i c, out := upd s.out i (s.out i ++ [b]) }
      | .need k =>
        match s.chan i with
        | a :: l => some { s with c := upd s.c i (k (some a)), chan := upd s.chan i l }
        | [] =>
          match net.source s.x with
          | .stop _ => some { s with c := upd s.c i (k none) }
          | _ => none
      | .stop _ => none
    else none

/-- An execution: the threads that move, one after the other. -/
def Net.exec (net : Net X C A B V U) : List (Option Nat) → Threads X C A B → Option (Threads X C A B)
  | [], s => some s
  | a :: as, s =>
    match net.move s a with
    | some s => net.exec as s
    | none => none

/-- The channels are empty. -/
def Threads.start (x : X) (c : Nat → C) : Threads X C A B := ⟨x, fun _ => [], c, fun _ => []⟩

/-! ### specification: each thread by itself -/

/-- In `n` moves the thread sends these items and ends with `v`. -/
inductive Net.Produces (net : Net X C A B V U) : Nat → X → List (Nat × A) → V → Prop
  | stop {x v} : net.source x = .stop v → net.Produces 0 x [] v
  | idle {n x y ps v} : net.source x = .idle y → net.Produces n y ps v → net.Produces (n + 1) x ps v
  | put {n x i a y ps v} : net.source x = .put i a y → i < net.N → net.Produces n y ps v →
      net.Produces (n + 1) x ((i, a) :: ps) v

/-- In `m` moves the thread, given these items and then none, gives out those and ends with `u`. -/
inductive Net.Consumes (net : Net X C A B V U) (i : Nat) : Nat → C → List A → List B → U → Prop
  | stop {c l u} : net.sink i c = .stop u → net.Consumes i 0 c l [] u
  | idle {m c c' l o u} : net.sink i c = .idle c' → net.Consumes i m c' l o u → net.Consumes i (m + 1) c l o u
  | give {m c b c' l o u} : net.sink i c = .give b c' → net.Consumes i m c' l o u → net.Consumes i (m + 1) c l (b :: o) u
  | take {m c k a l o u} : net.sink i c = .need k → net.Consumes i m (k (some a)) l o u →
      net.Consumes i (m + 1) c (a :: l) o u
  | last {m c k o u} : net.sink i c = .need k → net.Consumes i m (k none) [] o u → net.Consumes i (m + 1) c [] o u

/-- `m 0 + … + m (n - 1)` -/
def sumTo (m : Nat → Nat) : Nat → Nat
  | 0 => 0
  | n + 1 => sumTo m n + m n

/-! ### proofs -/

theorem sumTo_congr {m m' : Nat → Nat} {n : Nat} (h : ∀ i < n, m i = m' i) : sumTo m n = sumTo m' n := by
  induction n with
  | zero => rfl
  | succ n ih => rw [sumTo, sumTo, ih (fun i hi => h i (by omega)), h n (by omega)]

theorem sumTo_upd {m : Nat → Nat} {n i v : Nat} (hi : i < n) : sumTo (upd m i v) n + m i = sumTo m n + v := by
  induction n with
  | zero => omega
  | succ n ih =>
    simp only [sumTo]
    by_cases h : i = n
    · subst h
      rw [sumTo_congr (m' := m) (fun j hj => by simp only [upd]; rw [if_neg (by omega)])]
      simp only [upd, if_true]
      omega
    · have := ih (by omega)
      have e : upd m i v n = m n := by simp only [upd]; rw [if_neg (fun h' => h h'.symm)]
      rw [e]
      omega

theorem sumTo_zero {m : Nat → Nat} {n : Nat} (h : sumTo m n = 0) : ∀ i < n, m i = 0 := by
  induction n with
  | zero => intro i hi; omega
  | succ n ih =>
    intro i hi
    simp only [sumTo] at h
    by_cases e : i = n
    · subst e; omega
    · exact ih (by omega) i (by omega)

theorem sumTo_pos {m : Nat → Nat} {n : Nat} (h : sumTo m n ≠ 0) : ∃ i, i < n ∧ m i ≠ 0 := by
  induction n with
  | zero => exact absurd rfl h
  | succ n ih =>
    simp only [sumTo] at h
    by_cases e : m n = 0
    · obtain ⟨i, h1, h2⟩ := ih (by omega)
      exact ⟨i, by omega, h2⟩
    · exact ⟨n, by omega, e⟩

/-- What is still to be done, with `t` moves left. -/
structure Net.Left (net : Net X C A B V U) (outs : Nat → List B) (v : V) (u : Nat → U) (t : Nat) (s : Threads X C A B) :
    Prop where
  inv : ∃ (n : Nat) (ps : List (Nat × A)) (m : Nat → Nat) (o : Nat → List B), net.Produces n s.x ps v ∧ (∀ i < net.N, net.Consumes i (m i) (s.c i) (s.chan i ++ only i ps) (o i) (u i) ∧
    outs i = s.out i ++ o i) ∧ t = n + sumTo m net.N

theorem only_cons_same (i : Nat) (a : A) (ps : List (Nat × A)) : only i ((i, a) :: ps) = a :: only i ps := by
  simp [only]

theorem only_cons_other {i j : Nat} (h : j ≠ i) (a : A) (ps : List (Nat × A)) : only i ((j, a) :: ps) = only i ps := by
  simp [only, h]

theorem consumes_stopped {net : Net X C A B V U} {i m : Nat} {c : C} {l : List A} {o : List B} {u u' : U}
    (e : net.sink i c = .stop u') (h : net.Consumes i m c l o u) : m = 0 ∧ o = [] ∧ u' = u := by
  cases h with
  | stop h => rw [e] at h; cases h; exact ⟨rfl, rfl, rfl⟩
  | idle h _ => rw [e] at h; cases h
  | give h _ => rw [e] at h; cases h
  | take h _ => rw [e] at h; cases h
  | last h _ => rw [e] at h; cases h

/-- The thread behind channel `i` has moved. -/
theorem left_sink {net : Net X C A B V U} {outs : Nat → List B} {v : V} {u : Nat → U} {s : Threads X C A B} {n : Nat}
    {ps : List (Nat × A)} {m : Nat → Nat} {o : Nat → List B} {i m' : Nat} {c' : C} {l' : List A} {o' g : List B}
    (hi : i < net.N) (hP : net.Produces n s.x ps v)
    (hC : ∀ j < net.N, net.Consumes j (m j) (s.c j) (s.chan j ++ only j ps) (o j) (u j) ∧ outs j = s.out j ++ o j)
    (hm : m i = m' + 1) (ho : o i = g ++ o') (h : net.Consumes i m' c' (l' ++ only i ps) o' (u i)) :
    ∃ t', n + sumTo m net.N = t' + 1 ∧
      net.Left outs v u t' { s with c := upd s.c i c', chan := upd s.chan i l', out := upd s.out i (s.out i ++ g) } := by
  have hs := sumTo_upd (m := m) (v := m') hi
  refine ⟨n + sumTo (upd m i m') net.N, by omega, ⟨n, ps, upd m i m', upd o i o', hP, fun j hj => ?_, rfl⟩⟩
  by_cases hij : j = i
  · subst hij
    simp only [upd, if_true]
    refine ⟨h, ?_⟩
    rw [(hC j hj).2, ho, List.append_assoc]
  · simp only [upd]
    rw [if_neg hij, if_neg hij, if_neg hij, if_neg hij, if_neg hij]
    exact hC j hj

theorem upd_same (s : Nat → X) (i : Nat) : upd s i (s i) = s := by
  funext j
  simp only [upd]
  split
  · next h => rw [h]
  · rfl

theorem left_move {net : Net X C A B V U} {outs : Nat → List B} {v : V} {u : Nat → U} {t : Nat} {s s' : Threads X C A B}
    (h : net.Left outs v u t s) (a : Option Nat) (e : net.move s a = some s') : ∃ t', t = t' + 1 ∧ net.Left outs v u t' s' := by
  obtain ⟨n, ps, m, o, hP, hC, rfl⟩ := h.inv
  cases a with
  | none =>
    simp only [Net.move] at e
    cases hP with
    | stop h0 => rw [h0] at e; cases e
    | @idle n _ y _ _ h0 hP =>
      rw [h0] at e
      cases e
      exact ⟨n + sumTo m net.N, by omega, ⟨n, ps, m, o, hP, hC, rfl⟩⟩
    | @put n _ i a y ps _ h0 hi hP =>
      rw [h0] at e
      simp only at e
      have hCi := hC i hi
      rw [only_cons_same] at hCi
      by_cases hst : ∃ w, net.sink i (s.c i) = .stop w
      · obtain ⟨w, hw⟩ := hst
        rw [hw] at e
        cases e
        obtain ⟨z1, z2, z3⟩ := consumes_stopped hw hCi.1
        refine ⟨n + sumTo m net.N, by omega, ⟨n, ps, m, o, hP, fun j hj => ?_, rfl⟩⟩
        by_cases hij : j = i
        · subst hij
          refine ⟨?_, hCi.2⟩
          rw [z1, z2]
          exact .stop (by rw [← z3]; exact hw)
        · have := hC j hj
          rwa [only_cons_other (fun h => hij h.symm)] at this
      · have e' : (if (s.chan i).length < net.cap i then
            some { s with x := y, chan := upd s.chan i (s.chan i ++ [a]) } else none) = some s' := by
          cases hk : net.sink i (s.c i) with
          | stop w => exact absurd ⟨w, hk⟩ hst
          | _ => rw [hk] at e; exact e
        split at e'
        · cases e'
          refine ⟨n + sumTo m net.N, by omega, ⟨n, ps, m, o, hP, fun j hj => ?_, rfl⟩⟩
          by_cases hij : j = i
          · subst hij
            simp only [upd, if_true, List.append_assoc]
            exact hCi
          · have := hC j hj
            simp only [upd]
            rw [if_neg hij]
            rwa [only_cons_other (fun h => hij h.symm)] at this
        · cases e'
  | some i =>
    simp only [Net.move] at e
    split at e
    case isFalse => cases e
    case isTrue hi =>
    have hCi := (hC i hi).1
    cases hk : net.sink i (s.c i) with
    | stop w => rw [hk] at e; cases e
    | idle c' =>
      rw [hk] at e
      cases e
      generalize hm : m i = mi at hCi
      generalize ho : o i = oi at hCi
      generalize hl : s.chan i ++ only i ps = li at hCi
      cases hCi with
      | @idle m' _ c2 _ _ _ h0 hC' =>
        rw [hk] at h0
        cases h0
        have := left_sink (l' := s.chan i) (g := []) hi hP hC hm (by rw [ho]; rfl) (hl ▸ hC')
        rw [upd_same, List.append_nil, upd_same] at this
        exact this
      | stop h0 => rw [hk] at h0; cases h0
      | give h0 _ => rw [hk] at h0; cases h0
      | take h0 _ => rw [hk] at h0; cases h0
      | last h0 _ => rw [hk] at h0; cases h0
    | give b c' =>
      rw [hk] at e
      cases e
      generalize hm : m i = mi at hCi
      generalize ho : o i = oi at hCi
      generalize hl : s.chan i ++ only i ps = li at hCi
      cases hCi with
      | @give m' _ b2 c2 _ o' _ h0 hC' =>
        rw [hk] at h0
        cases h0
        have := left_sink (l' := s.chan i) (g := [b]) hi hP hC hm (by rw [ho]; rfl) (hl ▸ hC')
        rw [upd_same] at this
        exact this
      | stop h0 => rw [hk] at h0; cases h0
      | idle h0 _ => rw [hk] at h0; cases h0
      | take h0 _ => rw [hk] at h0; cases h0
      | last h0 _ => rw [hk] at h0; cases h0
    | need k =>
      rw [hk] at e
      simp only at e
      cases hq : s.chan i with
      | cons a l =>
        rw [hq] at e
        cases e
        rw [hq, List.cons_append] at hCi
        generalize hm : m i = mi at hCi
        generalize ho : o i = oi at hCi
        cases hCi with
        | @take m' _ k2 _ _ _ _ h0 hC' =>
          rw [hk] at h0
          cases h0
          have := left_sink (l' := l) (g := []) hi hP hC hm (by rw [ho]; rfl) hC'
          rw [List.append_nil, upd_same] at this
          exact this
        | stop h0 => rw [hk] at h0; cases h0
        | idle h0 _ => rw [hk] at h0; cases h0
        | give h0 _ => rw [hk] at h0; cases h0
      | nil =>
        rw [hq] at e
        simp only at e
        cases hP with
        | idle h0 _ => rw [h0] at e; cases e
        | put h0 _ _ => rw [h0] at e; cases e
        | stop hsrc =>
          rw [hsrc] at e
          cases e
          rw [hq, show only i ([] : List (Nat × A)) = [] from rfl] at hCi
          generalize hm : m i = mi at hCi
          generalize ho : o i = oi at hCi
          cases hCi with
          | @last m' _ k2 _ _ h0 hC' =>
            rw [hk] at h0
            cases h0
            have := left_sink (l' := []) (g := []) hi (.stop hsrc) hC hm (by rw [ho]; rfl) hC'
            rw [List.append_nil, upd_same, ← hq, upd_same] at this
            exact this
          | stop h0 => rw [hk] at h0; cases h0
          | idle h0 _ => rw [hk] at h0; cases h0
          | give h0 _ => rw [hk] at h0; cases h0

/-- A thread that has not ended and need not wait for an item can move. -/
theorem sink_moves {net : Net X C A B V U} {s : Threads X C A B} {i : Nat} (hi : i < net.N)
    (h : ∀ w, net.sink i (s.c i) ≠ .stop w) (hq : s.chan i ≠ [] ∨ ∃ v, net.source s.x = .stop v) :
    ∃ s', net.move s (some i) = some s' := by
  simp only [Net.move, if_pos hi]
  cases hk : net.sink i (s.c i) with
  | stop w => exact absurd hk (h w)
  | idle c => exact ⟨_, rfl⟩
  | give b c => exact ⟨_, rfl⟩
  | need k =>
    simp only
    cases hc : s.chan i with
    | cons a l => exact ⟨_, rfl⟩
    | nil =>
      rcases hq with hq | ⟨v, hv⟩
      · exact absurd hc hq
      · simp only [hv]; exact ⟨_, rfl⟩

theorem left_progress {net : Net X C A B V U} {outs : Nat → List B} {v : V} {u : Nat → U} {t : Nat} {s : Threads X C A B}
    (hcap : ∀ i < net.N, 0 < net.cap i) (h : net.Left outs v u t s) (ht : t ≠ 0) : ∃ a s', net.move s a = some s' := by
  obtain ⟨n, ps, m, o, hP, hC, rfl⟩ := h.inv
  cases hP with
  | stop h0 =>
    obtain ⟨i, hi, hmi⟩ := sumTo_pos (m := m) (n := net.N) (by omega)
    obtain ⟨s', e⟩ := sink_moves hi (fun w hw => hmi (consumes_stopped hw (hC i hi).1).1) (.inr ⟨v, h0⟩)
    exact ⟨some i, s', e⟩
  | @idle n _ y _ _ h0 _ => exact ⟨none, { s with x := y }, by simp only [Net.move, h0]⟩
  | @put n _ i a y ps _ h0 hi hP =>
    by_cases hst : ∃ w, net.sink i (s.c i) = .stop w
    · obtain ⟨w, hw⟩ := hst
      exact ⟨none, { s with x := y }, by simp only [Net.move, h0, hw]⟩
    · by_cases hroom : (s.chan i).length < net.cap i
      · refine ⟨none, { s with x := y, chan := upd s.chan i (s.chan i ++ [a]) }, ?_⟩
        simp only [Net.move, h0]
        cases hk : net.sink i (s.c i) with
        | stop w => exact absurd ⟨w, hk⟩ hst
        | _ => simp only [if_pos hroom]
      · obtain ⟨s', e⟩ := sink_moves (s := s) hi (fun w hw => hst ⟨w, hw⟩) (.inl (fun h => by
          rw [h] at hroom
          exact hroom (hcap i hi)))
        exact ⟨some i, s', e⟩

theorem left_exec {net : Net X C A B V U} {outs : Nat → List B} {v : V} {u : Nat → U} (as : List (Option Nat)) :
    ∀ {t : Nat} {s s' : Threads X C A B}, net.Left outs v u t s → net.exec as s = some s' →
    ∃ t', t = t' + as.length ∧ net.Left outs v u t' s' := by
  induction as with
  | nil => intro t s s' h e; cases e; exact ⟨t, rfl, h⟩
  | cons a as ih =>
    intro t s s' h e
    simp only [Net.exec] at e
    cases hm : net.move s a with
    | none => rw [hm] at e; cases e
    | some s1 =>
      rw [hm] at e
      obtain ⟨t1, e1, h1⟩ := left_move h a hm
      obtain ⟨t2, e2, h2⟩ := ih h1 e
      exact ⟨t2, by rw [List.length_cons]; omega, h2⟩

/-- **C173** Whatever the threads do, and however they are scheduled: if the one that fills the channels sends the items
`ps` when it runs alone, and each of the others gives out `outs i` when it is given its items one by one, then in every
execution each gives out these, in this order, and ends as it does alone. As long as not all have ended, one of them can
move. Every execution comes to its end after the same number of moves. -/
theorem c173_schedules (net : Net X C A B V U) (hcap : ∀ i < net.N, 0 < net.cap i) {n : Nat} {m : Nat → Nat} {x : X}
    {c : Nat → C} {ps : List (Nat × A)} {outs : Nat → List B} {v : V} {u : Nat → U} (hP : net.Produces n x ps v)
    (hC : ∀ i < net.N, net.Consumes i (m i) (c i) (only i ps) (outs i) (u i))
    (as : List (Option Nat)) (s : Threads X C A B) (he : net.exec as (.start x c) = some s) :
    as.length ≤ n + sumTo m net.N ∧
    (∀ i < net.N, s.out i <+: outs i) ∧
    (as.length < n + sumTo m net.N → ∃ a s', net.move s a = some s') ∧
    (as.length = n + sumTo m net.N → net.source s.x = .stop v ∧
      ∀ i < net.N, net.sink i (s.c i) = .stop (u i) ∧ s.out i = outs i) := by
  have h0 : net.Left outs v u (n + sumTo m net.N) (.start x c) :=
    ⟨n, ps, m, outs, hP, fun i hi => ⟨hC i hi, rfl⟩, rfl⟩
  obtain ⟨t, ht, h⟩ := left_exec as h0 he
  have hleft := h
  obtain ⟨n', ps', m', o', hP', hC', rfl⟩ := h.inv
  refine ⟨by omega, fun i hi => ⟨o' i, (hC' i hi).2.symm⟩, fun hlt => left_progress hcap hleft (by omega), fun heq => ?_⟩
  have hn : n' = 0 := by omega
  have hm := sumTo_zero (m := m') (n := net.N) (by omega)
  subst hn
  cases hP' with
  | stop h0 =>
    refine ⟨h0, fun i hi => ?_⟩
    obtain ⟨h1, h2⟩ := hC' i hi
    rw [hm i hi] at h1
    generalize ho : o' i = oi at h1 h2
    cases h1 with
    | stop h1 => exact ⟨h1, by rw [h2, List.append_nil]⟩

/-! ### the player -/

/-- The thread that demuxes: it is about to read an event, or to send a packet. -/
inductive Reading (D R : Type)
  | read (c : Context D R) | send (i : Nat) (p : Packet) (c : Context D R)

/-- `loop { match ctx.read_event()? { NewPacket(p) => if let Some(tx) = senders.get(p.stream_index) { tx.send(p) }
, Eof => return Ok(()), _ => {} } }` -/
def reading (dm : Demuxer D R) (bf : Buffered R) (fuel N : Nat) : Reading D R →
    Fills (Reading D R) Packet (Rust (Except AppErr Unit × Context D R))
  | .send i p c => .put i p (.read c)
  | .read c =>
    match readEvent dm bf fuel c with
    | .error e => .stop (.error e)
    | .ok (.error e, c) => .stop (.ok (.error (.format e), c))
    | .ok (.ok (.NewPacket p), c) =>
      if 0 ≤ p.stream_index ∧ p.stream_index.toNat < N then .idle (.send p.stream_index.toNat p c) else .idle (.read c)
    | .ok (.ok .Eof, c) => .stop (.ok (.ok (), c))
    | .ok (.ok _, c) => .idle (.read c)

/-- A thread that decodes: it waits for a packet, has one, has found the channel closed, or receives frames (and will end
when there are no more, or wait for the next packet; `n` bounds the frames received at a time). -/
inductive Decoding (C : Type)
  | wait (cd : DecContext C) | feed (p : Packet) (cd : DecContext C) | close (cd : DecContext C)
  | drain (last : Bool) (n : Nat) (cd : DecContext C)

/-- `while let Ok(p) = receiver.recv() { cd.send_packet(&p)?; drain(); } cd.flush()?; drain();` where `drain` is
`loop { match cd.receive_frame() { Ok(f) => show(f), Err(MoreDataNeeded) => break, Err(e) => return Err(e) } }` -/
def decoding (dc : Decoder C) (k : Nat) : Decoding C → Empties (Decoding C) Packet Frame (Rust (Except AppErr Unit × DecContext C))
  | .wait cd => .need fun
    | some p => .feed p cd
    | none => .close cd
  | .feed p cd =>
    match cd.sendPacket dc p with
    | .error e => .stop (.error e)
    | .ok (.error e, cd) => .stop (.ok (.error (.codec e), cd))
    | .ok (.ok (), cd) => .idle (.drain false k cd)
  | .close cd =>
    match cd.flush dc with
    | .error e => .stop (.error e)
    | .ok (.error e, cd) => .stop (.ok (.error (.codec e), cd))
    | .ok (.ok (), cd) => .idle (.drain true k cd)
  | .drain _ 0 _ => .stop (.error .fuel)
  | .drain last (n + 1) cd =>
    match cd.receiveFrame dc with
    | .error e => .stop (.error e)
    | .ok (.ok f, cd) => .give f (.drain last n cd)
    | .ok (.error .MoreDataNeeded, cd) => if last then .stop (.ok (.ok (), cd)) else .idle (.wait cd)
    | .ok (.error e, cd) => .stop (.ok (.error (.codec e), cd))

/-- The player of C163 with threads: one for the file, and one for each stream. -/
def player (dc : Decoder C) (dm : Demuxer D R) (bf : Buffered R) (fuel k N : Nat) (cap : Nat → Nat) :
    Net (Reading D R) (Decoding C) Packet Frame (Rust (Except AppErr Unit × Context D R)) (Rust (Except AppErr Unit × DecContext C)) where
  N := N
  cap := cap
  source := reading dm bf fuel N
  sink _ := decoding dc k

section
variable {dc : Decoder C} {dm : Demuxer D R} {bf : Buffered R} {fuel k N : Nat} {cap : Nat → Nat}

/-- Frames received one by one are those of `drainFrames`. -/
theorem consumes_drain (i : Nat) (last : Bool) (l : List Packet) (o : List Frame)
    (u : Rust (Except AppErr Unit × DecContext C)) : ∀ (n : Nat) (cd cd' : DecContext C) (fs : List Frame) (m : Nat),
    drainFrames dc n cd = .ok (.ok fs, cd') →
    (if last then o = [] ∧ m = 0 ∧ u = .ok (.ok (), cd') else
      ∃ m', m = m' + 1 ∧ (player dc dm bf fuel k N cap).Consumes i m' (.wait cd') l o u) →
    ∃ m'', (player dc dm bf fuel k N cap).Consumes i m'' (.drain last n cd) l (fs ++ o) u := by
  intro n
  induction n with
  | zero => intro cd cd' fs m e; cases e
  | succ n ih =>
    intro cd cd' fs m e h
    simp only [drainFrames] at e
    cases hr : cd.receiveFrame dc with
    | error er => rw [hr] at e; cases e
    | ok r =>
      obtain ⟨x, cd1⟩ := r
      simp only [hr, ok_bind] at e
      cases x with
      | ok f =>
        simp only at e
        cases hd : drainFrames dc n cd1 with
        | error er => rw [hd] at e; cases e
        | ok r =>
          obtain ⟨y, cd2⟩ := r
          simp only [hd, ok_bind] at e
          cases y with
          | error er => cases e
          | ok gs =>
            cases e
            obtain ⟨m2, h2⟩ := ih cd1 cd' gs m hd h
            exact ⟨m2 + 1, .give (by simp only [player, decoding, hr]) h2⟩
      | error er =>
        cases er with
        | MoreDataNeeded =>
          cases e
          cases last with
          | true =>
            simp only [if_true] at h
            obtain ⟨rfl, _, rfl⟩ := h
            exact ⟨0, .stop (by simp only [player, decoding, hr]; rfl)⟩
          | false =>
            simp only [Bool.false_eq_true, if_false] at h
            obtain ⟨m', _, h⟩ := h
            exact ⟨m' + 1, .idle (by simp only [player, decoding, hr]; rfl) h⟩
        | _ => cases e

theorem flushDecoders_threads (cds : List (DecContext C)) : ∀ (i : Nat) (out : List (Nat × Frame)) (cds' : List (DecContext C)),
    flushDecoders dc k i cds = .ok (.ok out, cds') →
    cds'.length = cds.length ∧ (∀ y ∈ out, i ≤ y.1) ∧ ∀ j cd cd', cds[j]? = some cd → cds'[j]? = some cd' →
      ∃ m, (player dc dm bf fuel k N cap).Consumes (i + j) m (.close cd) [] (only (i + j) out) (.ok (.ok (), cd')) := by
  induction cds with
  | nil => intro i out cds' e; cases e; exact ⟨rfl, by simp, fun j cd cd' h => by simp at h⟩
  | cons cd cds ih =>
    intro i out cds' e
    simp only [flushDecoders] at e
    cases hf : cd.flush dc with
    | error er => rw [hf] at e; cases e
    | ok r =>
    obtain ⟨x, cd1⟩ := r
    simp only [hf, ok_bind] at e
    cases x with
    | error er => cases e
    | ok _ =>
    simp only at e
    cases hd : drainFrames dc k cd1 with
    | error er => rw [hd] at e; cases e
    | ok r =>
    obtain ⟨y, cd2⟩ := r
    simp only [hd, ok_bind] at e
    cases y with
    | error er => cases e
    | ok fs =>
    simp only at e
    cases hg : flushDecoders dc k (i + 1) cds with
    | error er => rw [hg] at e; cases e
    | ok r =>
    obtain ⟨z, cds2⟩ := r
    simp only [hg, ok_bind] at e
    cases z with
    | error er => cases e
    | ok gs =>
    cases e
    obtain ⟨a1, a2, a3⟩ := ih (i + 1) gs cds2 hg
    refine ⟨by simp [a1], ?_, ?_⟩
    · intro y hy
      rcases List.mem_append.1 hy with hy | hy
      · obtain ⟨f, _, rfl⟩ := List.mem_map.1 hy; exact Nat.le_refl _
      · have := a2 y hy; omega
    · intro j d d' h1 h2
      cases j with
      | zero =>
        cases h1
        cases h2
        have hno : only i gs = [] := by
          simp only [only, List.filterMap_eq_nil_iff]
          intro y hy
          have := a2 y hy
          rw [if_neg (by omega)]
        rw [Nat.add_zero, only_append, only_same, hno]
        obtain ⟨m, hm⟩ := consumes_drain (dm := dm) (bf := bf) (fuel := fuel) (k := k) (N := N) (cap := cap) i true [] []
          (.ok (.ok (), cd2)) k cd1 cd2 fs 0 hd (by simp)
        exact ⟨m + 1, .idle (by simp only [player, decoding, hf]) hm⟩
      | succ j =>
        rw [only_append, only_other (by omega), List.nil_append, show i + (j + 1) = i + 1 + j by omega]
        exact a3 j d d' h1 h2

/-- What the threads do, each by itself, when the player in one thread comes to its end. -/
theorem playAll_threads : ∀ (n : Nat) (cds : List (DecContext C)) (c : Context D R) (out : List (Nat × Frame))
    (cds' : List (DecContext C)) (c' : Context D R), cds.length = N →
    playAll dc dm bf fuel k n cds c = .ok (.ok out, cds', c') →
    cds'.length = N ∧ ∃ n' ps, (player dc dm bf fuel k N cap).Produces n' (.read c) ps (.ok (.ok (), c')) ∧
      ∀ i cd cd', cds[i]? = some cd → cds'[i]? = some cd' →
        ∃ m, (player dc dm bf fuel k N cap).Consumes i m (.wait cd) (only i ps) (only i out) (.ok (.ok (), cd')) := by
  intro n
  induction n with
  | zero => intro cds c out cds' c' _ e; cases e
  | succ n ih =>
    intro cds c out cds' c' hN e
    simp only [playAll] at e
    cases he : readEvent dm bf fuel c with
    | error er => rw [he] at e; cases e
    | ok r =>
    obtain ⟨x, c1⟩ := r
    simp only [he, ok_bind] at e
    cases x with
    | error er => cases e
    | ok ev =>
    cases ev with
    | NewPacket p =>
      simp only at e
      by_cases hidx : 0 ≤ p.stream_index ∧ p.stream_index.toNat < N
      · have hlt : p.stream_index.toNat < cds.length := by omega
        rw [if_neg (by omega), List.getElem?_eq_getElem hlt] at e
        simp only at e
        cases hs : cds[p.stream_index.toNat].sendPacket dc p with
        | error er => rw [hs] at e; cases e
        | ok r =>
        obtain ⟨y, cd1⟩ := r
        simp only [hs, ok_bind] at e
        cases y with
        | error er => cases e
        | ok _ =>
        simp only at e
        cases hd : drainFrames dc k cd1 with
        | error er => rw [hd] at e; cases e
        | ok r =>
        obtain ⟨z, cd2⟩ := r
        simp only [hd, ok_bind] at e
        cases z with
        | error er => cases e
        | ok fs =>
        simp only at e
        cases hp : playAll dc dm bf fuel k n (cds.set p.stream_index.toNat cd2) c1 with
        | error er => rw [hp] at e; cases e
        | ok r =>
        obtain ⟨w, cds2, c2⟩ := r
        simp only [hp, ok_bind] at e
        cases w with
        | error er => cases e
        | ok gs =>
        cases e
        obtain ⟨a0, n', ps, a1, a2⟩ := ih _ c1 gs cds' c' (by simpa using hN) hp
        refine ⟨a0, n' + 1 + 1, (p.stream_index.toNat, p) :: ps,
          .idle (y := .send p.stream_index.toNat p c1) (by simp only [player, reading, he, if_pos hidx])
            (.put (by simp only [player, reading]) hidx.2 a1), ?_⟩
        intro i cd cd' h1 h2
        by_cases hi : p.stream_index.toNat = i
        · subst hi
          rw [List.getElem?_eq_getElem hlt] at h1
          cases h1
          obtain ⟨m, hm⟩ := a2 p.stream_index.toNat cd2 cd' (List.getElem?_set_self hlt) h2
          rw [only_cons_same, only_append, only_same]
          obtain ⟨m2, hm2⟩ := consumes_drain (dm := dm) (bf := bf) (fuel := fuel) (k := k) (N := N) (cap := cap)
            p.stream_index.toNat false (only p.stream_index.toNat ps) (only p.stream_index.toNat gs) (.ok (.ok (), cd'))
            k cd1 cd2 fs (m + 1) hd (by simpa using hm)
          exact ⟨m2 + 1 + 1, .take (k := _) (by simp only [player, decoding]; rfl)
            (.idle (by simp only [player, decoding, hs]) hm2)⟩
        · rw [only_cons_other hi, only_append, only_other hi, List.nil_append]
          exact a2 i cd cd' (by rw [List.getElem?_set_ne hi]; exact h1) h2
      · have hno : (if p.stream_index < 0 then none else cds[p.stream_index.toNat]?) = none := by
          split
          · rfl
          · exact List.getElem?_eq_none (by omega)
        rw [hno] at e
        simp only at e
        obtain ⟨a0, n', ps, a1, a2⟩ := ih cds c1 out cds' c' hN e
        exact ⟨a0, n' + 1, ps, .idle (by simp only [player, reading, he, if_neg hidx]) a1, a2⟩
    | Eof =>
      simp only at e
      cases hf : flushDecoders dc k 0 cds with
      | error er => rw [hf] at e; cases e
      | ok r =>
      obtain ⟨y, cds2⟩ := r
      rw [hf] at e
      cases e
      obtain ⟨a1, _, a3⟩ := flushDecoders_threads (dm := dm) (bf := bf) (fuel := fuel) (N := N) (cap := cap) cds 0 out _ hf
      refine ⟨a1.trans hN, 0, [], .stop (by simp only [player, reading, he]), ?_⟩
      intro i cd cd' h1 h2
      obtain ⟨m, hm⟩ := a3 i cd cd' h1 h2
      rw [Nat.zero_add] at hm
      exact ⟨m + 1, .last (k := _) (by simp only [player, decoding]; rfl) hm⟩
    | NewStream st =>
      obtain ⟨a0, n', ps, a1, a2⟩ := ih cds c1 out cds' c' hN e
      exact ⟨a0, n' + 1, ps, .idle (by simp only [player, reading, he]) a1, a2⟩
    | MoreDataNeeded j =>
      obtain ⟨a0, n', ps, a1, a2⟩ := ih cds c1 out cds' c' hN e
      exact ⟨a0, n' + 1, ps, .idle (by simp only [player, reading, he]) a1, a2⟩
    | Continue =>
      obtain ⟨a0, n', ps, a1, a2⟩ := ih cds c1 out cds' c' hN e
      exact ⟨a0, n' + 1, ps, .idle (by simp only [player, reading, he]) a1, a2⟩

end

/-- **C173** A file is demuxed in one thread, and each stream is decoded in another, with channels of any sizes between
them. If the player that does all this in one thread plays the file (C163), then in every execution of the threads each
stream shows the frames it shows there, in the same order; the threads never wait for each other in a circle; every
execution ends, after a number of moves that does not depend on the schedule; and demuxer and decoders are then in the
states they have there. -/
theorem c173_player (dc : Decoder C) (dm : Demuxer D R) (bf : Buffered R) (fuel k n : Nat) (cap : Nat → Nat)
    (hcap : ∀ i, 0 < cap i) (cds cds' : List (DecContext C)) (c c' : Context D R) (out : List (Nat × Frame))
    (h : playAll dc dm bf fuel k n cds c = .ok (.ok out, cds', c'))
    (st : Nat → Decoding C) (hst : ∀ i cd, cds[i]? = some cd → st i = .wait cd) :
    cds'.length = cds.length ∧ ∃ total, ∀ as s,
      (player dc dm bf fuel k cds.length cap).exec as (.start (.read c) st) = some s →
      as.length ≤ total ∧
      (∀ i < cds.length, s.out i <+: only i out) ∧
      (as.length < total → ∃ a s', (player dc dm bf fuel k cds.length cap).move s a = some s') ∧
      (as.length = total → reading dm bf fuel cds.length s.x = .stop (.ok (.ok (), c')) ∧
        ∀ i cd', cds'[i]? = some cd' → decoding dc k (s.c i) = .stop (.ok (.ok (), cd')) ∧ s.out i = only i out) := by
  obtain ⟨a0, n', ps, a1, a2⟩ := playAll_threads (dc := dc) (dm := dm) (bf := bf) (fuel := fuel) (k := k) (cap := cap)
    n cds c out cds' c' rfl h
  have hC : ∀ i, ∃ m, i < cds.length → ∃ cd', cds'[i]? = some cd' ∧
      (player dc dm bf fuel k cds.length cap).Consumes i m (st i) (only i ps) (only i out) (.ok (.ok (), cd')) := by
    intro i
    by_cases hi : i < cds.length
    · obtain ⟨m, hm⟩ := a2 i cds[i] cds'[i] (List.getElem?_eq_getElem hi) (List.getElem?_eq_getElem (by omega))
      exact ⟨m, fun _ => ⟨cds'[i], List.getElem?_eq_getElem (by omega), by rw [hst i _ (List.getElem?_eq_getElem hi)]; exact hm⟩⟩
    · exact ⟨0, fun h => absurd h hi⟩
  obtain ⟨m, hm⟩ := Classical.axiomOfChoice hC
  obtain ⟨u, hu⟩ : ∃ u : Nat → Rust (Except AppErr Unit × DecContext C), ∀ i cd', cds'[i]? = some cd' →
      u i = .ok (.ok (), cd') :=
    ⟨fun i => match cds'[i]? with | some cd' => .ok (.ok (), cd') | none => .error .fuel, fun i cd' e => by simp only [e]⟩
  refine ⟨a0, n' + sumTo m cds.length, fun as s he => ?_⟩
  have key := c173_schedules (player dc dm bf fuel k cds.length cap) (fun i _ => hcap i)
    (m := m) (c := st) (outs := fun i => only i out) (u := u) a1
    (by
      intro i hi
      obtain ⟨cd', e, hc⟩ := hm i hi
      rw [hu i cd' e]
      exact hc) as s he
  refine ⟨key.1, key.2.1, key.2.2.1, fun heq => ?_⟩
  obtain ⟨k1, k2⟩ := key.2.2.2 heq
  refine ⟨k1, fun i cd' hi => ?_⟩
  have hil : i < cds.length := by
    rw [← a0]
    exact (List.getElem?_eq_some_iff.1 hi).1
  rw [← hu i cd' hi]
  exact k2 i hil

/-- **C173** Also if threads fail: the file's thread, or the decoder of a stream, or both. Whatever the file gives up to
where the reading thread ends, each stream shows what its decoder makes of its own packets; a decoder that fails or
panics takes nothing from the other streams. -/
theorem c173_failing (dc : Decoder C) (dm : Demuxer D R) (bf : Buffered R) (fuel k N : Nat) (cap : Nat → Nat)
    (hcap : ∀ i, 0 < cap i) (c : Context D R) (st : Nat → Decoding C) {n : Nat} {ps : List (Nat × Packet)}
    {v : Rust (Except AppErr Unit × Context D R)} (hP : (player dc dm bf fuel k N cap).Produces n (.read c) ps v)
    {m : Nat → Nat} {outs : Nat → List Frame} {u : Nat → Rust (Except AppErr Unit × DecContext C)}
    (hC : ∀ i < N, (player dc dm bf fuel k N cap).Consumes i (m i) (st i) (only i ps) (outs i) (u i))
    (as : List (Option Nat)) (s : Threads (Reading D R) (Decoding C) Packet Frame)
    (he : (player dc dm bf fuel k N cap).exec as (.start (.read c) st) = some s)
    (hend : ∀ a, (player dc dm bf fuel k N cap).move s a = none) :
    reading dm bf fuel N s.x = .stop v ∧ ∀ i < N, decoding dc k (s.c i) = .stop (u i) ∧ s.out i = outs i := by
  obtain ⟨k1, _, k2, k3⟩ := c173_schedules (player dc dm bf fuel k N cap) (fun i _ => hcap i) hP hC as s he
  apply k3
  rcases Nat.lt_or_ge as.length (n + sumTo m N) with hlt | hge
  · obtain ⟨a, s', e⟩ := k2 hlt
    rw [hend a] at e
    cases e
  · exact Nat.le_antisymm k1 hge

/-! ### running a thread by itself -/

/-- What the thread that fills the channels sends when nothing stops it: its moves, the items, and how it ends. -/
def Net.alone (net : Net X C A B V U) : Nat → X → Option (Nat × List (Nat × A) × V)
  | 0, _ => none
  | f + 1, x =>
    match net.source x with
    | .stop v => some (0, [], v)
    | .idle y => (net.alone f y).map fun r => (r.1 + 1, r.2)
    | .put i a y => if i < net.N then (net.alone f y).map fun r => (r.1 + 1, (i, a) :: r.2.1, r.2.2) else none

/-- What the thread behind channel `i` gives out for these items. -/
def Net.fed (net : Net X C A B V U) (i : Nat) : Nat → C → List A → Option (Nat × List B × U)
  | 0, _, _ => none
  | f + 1, c, l =>
    match net.sink i c with
    | .stop u => some (0, [], u)
    | .idle c => (net.fed i f c l).map fun r => (r.1 + 1, r.2)
    | .give b c => (net.fed i f c l).map fun r => (r.1 + 1, b :: r.2.1, r.2.2)
    | .need k =>
      match l with
      | a :: l => (net.fed i f (k (some a)) l).map fun r => (r.1 + 1, r.2)
      | [] => (net.fed i f (k none) []).map fun r => (r.1 + 1, r.2)

theorem alone_produces (net : Net X C A B V U) : ∀ (f : Nat) (x : X) (r : Nat × List (Nat × A) × V), net.alone f x = some r →
    net.Produces r.1 x r.2.1 r.2.2 := by
  intro f
  induction f with
  | zero => intro x r e; cases e
  | succ f ih =>
    intro x r e
    simp only [Net.alone] at e
    cases h : net.source x with
    | stop v => rw [h] at e; cases e; exact .stop h
    | idle y =>
      rw [h] at e
      obtain ⟨r', e', rfl⟩ := Option.map_eq_some_iff.1 e
      exact .idle h (ih y r' e')
    | put i a y =>
      rw [h] at e
      simp only at e
      split at e
      · next hi =>
        obtain ⟨r', e', rfl⟩ := Option.map_eq_some_iff.1 e
        exact .put h hi (ih y r' e')
      · cases e

theorem fed_consumes (net : Net X C A B V U) (i : Nat) : ∀ (f : Nat) (c : C) (l : List A) (r : Nat × List B × U),
    net.fed i f c l = some r → net.Consumes i r.1 c l r.2.1 r.2.2 := by
  intro f
  induction f with
  | zero => intro c l r e; cases e
  | succ f ih =>
    intro c l r e
    simp only [Net.fed] at e
    cases h : net.sink i c with
    | stop v => rw [h] at e; cases e; exact .stop h
    | idle c' =>
      rw [h] at e
      obtain ⟨r', e', rfl⟩ := Option.map_eq_some_iff.1 e
      exact .idle h (ih c' l r' e')
    | give b c' =>
      rw [h] at e
      obtain ⟨r', e', rfl⟩ := Option.map_eq_some_iff.1 e
      exact .give h (ih c' l r' e')
    | need k =>
      rw [h] at e
      cases l with
      | cons a l =>
        obtain ⟨r', e', rfl⟩ := Option.map_eq_some_iff.1 e
        exact .take h (ih _ l r' e')
      | nil =>
        obtain ⟨r', e', rfl⟩ := Option.map_eq_some_iff.1 e
        exact .last h (ih _ [] r' e')

/-! ### example: the file of C163's example; a second file whose second stream the decoder does not take -/

/-- At most `n` moves; each time the first thread of `order` moves that can. -/
def Net.drive (net : Net X C A B V U) (order : List (Option Nat)) : Nat → Threads X C A B → List (Option Nat) × Threads X C A B
  | 0, s => ([], s)
  | n + 1, s =>
    match order.findSome? (fun a => (net.move s a).map fun s => (a, s)) with
    | none => ([], s)
    | some (a, s) =>
      let r := net.drive order n s
      (a :: r.1, r.2)

def twoFile : List U8 := [65, 86, 2, 1, 8, 8, 1, 0, 9, 1, 0, 7, 1, 1, 6, 1, 0, 5, 0]

/-- The file behind a reader that gives a byte or two at a time, after the headers. -/
def twoOpened : Context Unit Acc.Acc :=
  match readHeaders twoFormat.demuxer accBuffered 40 (Context.new () (Acc.withCapacity 1 ⟨twoFile, 0, sampleActs, 0⟩)) with
  | .ok (.ok (), c) => c
  | _ => Context.new () (Acc.withCapacity 1 ⟨[], 0, sampleActs, 0⟩)

def twoOpen : List (DecContext (Nat × List U8 × Option Packet × List Frame)) :=
  match openDecoders twoDecoder (Codecs.fromList twoDecoders) twoOpened.info.streams with
  | .ok (.ok cds) => cds
  | _ => []

def twoThreads (i : Nat) : Decoding (Nat × List U8 × Option Packet × List Frame) :=
  match twoOpen[i]? with
  | some cd => .wait cd
  | none => .drain true 0 ⟨(0, [], none, [])⟩

example : (∀ i, 0 < (fun _ : Nat => 1) i) ∧ (∀ i cd, twoOpen[i]? = some cd → twoThreads i = .wait cd) ∧ twoOpen.length = 2 ∧
    (match playAll twoDecoder twoFormat.demuxer accBuffered 40 9 9 twoOpen twoOpened with
      | .ok (.ok out, _, _) => decide (out =
          [(1, pcmFrame [8, 8]), (0, pcmFrame [7]), (0, pcmFrame [9]), (1, pcmFrame [6]), (0, pcmFrame [5])])
      | _ => false) = true := by
  refine ⟨fun _ => Nat.one_pos, ?_, by decide +kernel, by decide +kernel⟩
  intro i cd h
  simp only [twoThreads, h]

/-- Two executions, with channels of one packet and of three: the orders differ, the frames do not. -/
example : (let net := player twoDecoder twoFormat.demuxer accBuffered 40 9 2
    let r1 := (net (fun _ => 1)).drive [none, some 1, some 0] 99 (.start (.read twoOpened) twoThreads)
    let r2 := (net (fun _ => 3)).drive [some 0, some 1, none] 99 (.start (.read twoOpened) twoThreads)
    decide (r1.1 ≠ r2.1 ∧ r1.1.length = r2.1.length ∧ r1.1.length < 99 ∧
      r1.2.out 0 = [pcmFrame [7], pcmFrame [9], pcmFrame [5]] ∧ r1.2.out 1 = [pcmFrame [8, 8], pcmFrame [6]] ∧
      r2.2.out 0 = [pcmFrame [7], pcmFrame [9], pcmFrame [5]] ∧ r2.2.out 1 = [pcmFrame [8, 8], pcmFrame [6]])) = true := by
  decide +kernel

/-- The decoder of the first stream fails at the packet with a 9. -/
def choosy : Decoder (Nat × List U8 × Option Packet × List Frame) :=
  { twoDecoder with sendPacket := fun d p => if p.data = [9] then .ok (.error .InvalidData, d) else twoDecoder.sendPacket d p }

def choosyPlayer := player choosy twoFormat.demuxer accBuffered 40 9 2 (fun _ => 1)

/-- The sequential player fails, and shows less of the second stream than the threads do. -/
example : (∃ n ps v, choosyPlayer.Produces n (.read twoOpened) ps v ∧ ps.map (fun y => (y.1, y.2.data)) =
      [(1, [8, 8]), (0, [9]), (0, [7]), (1, [6]), (0, [5])] ∧
      (∃ m u, choosyPlayer.Consumes 0 m (twoThreads 0) (only 0 ps) [] u) ∧
      ∃ m u, choosyPlayer.Consumes 1 m (twoThreads 1) (only 1 ps) [pcmFrame [8, 8], pcmFrame [6]] u) ∧
    (match playAll choosy twoFormat.demuxer accBuffered 40 9 9 twoOpen twoOpened with
      | .ok (.error (.codec .InvalidData), _, _) => true
      | _ => false) = true ∧
    (let r := choosyPlayer.drive [none, some 1, some 0] 99 (.start (.read twoOpened) twoThreads)
    decide (r.1.length < 99 ∧ r.2.out 0 = [] ∧ r.2.out 1 = [pcmFrame [8, 8], pcmFrame [6]])) = true := by
  refine ⟨?_, by decide +kernel, by decide +kernel⟩
  cases h : choosyPlayer.alone 99 (.read twoOpened) with
  | none =>
    have : (choosyPlayer.alone 99 (.read twoOpened)).isSome = true := by decide +kernel
    rw [h] at this
    cases this
  | some r =>
    have e1 : (choosyPlayer.alone 99 (.read twoOpened)).map (fun r => r.2.1.map fun y => (y.1, y.2.data)) =
      some [(1, [8, 8]), (0, [9]), (0, [7]), (1, [6]), (0, [5])] := by decide +kernel
    have e2 : ((choosyPlayer.alone 99 (.read twoOpened)).bind fun r => (choosyPlayer.fed 0 99 (twoThreads 0) (only 0 r.2.1)).map
      fun q => q.2.1) = some [] := by decide +kernel
    have e3 : ((choosyPlayer.alone 99 (.read twoOpened)).bind fun r => (choosyPlayer.fed 1 99 (twoThreads 1) (only 1 r.2.1)).map
      fun q => q.2.1) = some [pcmFrame [8, 8], pcmFrame [6]] := by decide +kernel
    rw [h] at e1 e2 e3
    obtain ⟨q2, f2, g2⟩ := Option.map_eq_some_iff.1 e2
    obtain ⟨q3, f3, g3⟩ := Option.map_eq_some_iff.1 e3
    refine ⟨r.1, r.2.1, r.2.2, alone_produces _ _ _ _ h, Option.some.inj e1, ⟨q2.1, q2.2.2, ?_⟩, ⟨q3.1, q3.2.2, ?_⟩⟩
    · have := fed_consumes _ _ _ _ _ _ f2
      rwa [g2] at this
    · have := fed_consumes _ _ _ _ _ _ f3
      rwa [g3] at this

end Verif.RoundTrip
