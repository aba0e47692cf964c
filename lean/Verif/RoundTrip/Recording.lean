import Verif.RoundTrip.Threads

/-!
# C174: recording with threads

The other way round than C173: each stream is encoded in a thread of its own, and one thread writes the packets of all of
them, which it receives through one bounded channel (`sync_channel`, whose sender the encoding threads clone). Which file
this gives depends on the schedule; what the file plays does not.
-/

namespace Verif.RoundTrip
open Verif Verif.Io Verif.Frame Verif.Stream Verif.Packet Verif.Demux Verif.Codec

variable {M W D R E C S T X A B V U : Type}

/-! ### threads that send to one -/

/-- What a sending thread does next: something of its own, `sender.send(a)`, or it ends. -/
inductive Sends (X A V : Type)
  | idle (x : X) | put (a : A) (x : X) | stop (v : V)

def Sends.stopped : Sends X A V → Bool
  | .stop _ => true
  | _ => false

/-- `N` threads that send to one. This one is `for a in receiver { take(a) }` and then `finish`; it may end before, where
`ends` holds (`take(a)?`), and drops its receiver. -/
structure Gather (X C A V : Type) where
  N : Nat
  cap : Nat
  source : Nat → X → Sends X A V
  take : C → A → C
  finish : C → C
  ends : C → Bool

structure Gathered (X C A : Type) where
  x : Nat → X
  chan : List A
  c : C
  done : Bool

/-- A thread moves: the receiving one, or sender `i`. What is sent when the receiver is gone is dropped. -/
def Gather.move (net : Gather X C A V) (s : Gathered X C A) : Option Nat → Option (Gathered X C A)
  | some i =>
    if i < net.N then
      match net.source i (s.x i) with
      | .idle y => some { s with x := upd s.x i y }
      | .put a y =>
        if s.done ∨ net.ends s.c then some { s with x := upd s.x i y }
        else if s.chan.length < net.cap then some { s with x := upd s.x i y, chan := s.chan ++ [a] } else none
      | .stop _ => none
    else none
  | none =>
    if s.done ∨ net.ends s.c then none
    else
      match s.chan with
      | a :: l => some { s with c := net.take s.c a, chan := l }
      | [] => if (List.range net.N).all fun i => (net.source i (s.x i)).stopped then
          some { s with c := net.finish s.c, done := true } else none

def Gather.exec (net : Gather X C A V) : List (Option Nat) → Gathered X C A → Option (Gathered X C A)
  | [], s => some s
  | a :: as, s =>
    match net.move s a with
    | some s => net.exec as s
    | none => none

/-- The channel is empty. -/
def Gathered.start (x : Nat → X) (c : C) : Gathered X C A := ⟨x, [], c, false⟩

/-! ### specification -/

/-- In `n` moves the thread, run by itself, sends these items and ends with `v`. -/
inductive Gather.Gives (net : Gather X C A V) (i : Nat) : Nat → X → List A → V → Prop
  | stop {x v} : net.source i x = .stop v → net.Gives i 0 x [] v
  | idle {n x y l v} : net.source i x = .idle y → net.Gives i n y l v → net.Gives i (n + 1) x l v
  | put {n x a y l v} : net.source i x = .put a y → net.Gives i n y l v → net.Gives i (n + 1) x (a :: l) v

/-- The items of the lists `outs 0, …, outs (N - 1)`, those of each list in its order. -/
def Merges (N : Nat) (outs : Nat → List A) (ps : List (Nat × A)) : Prop :=
  (∀ y ∈ ps, y.1 < N) ∧ ∀ i < N, only i ps = outs i

/-- The beginning of such a list. -/
def MergesPrefix (N : Nat) (outs : Nat → List A) (ps : List (Nat × A)) : Prop :=
  (∀ y ∈ ps, y.1 < N) ∧ ∀ i < N, only i ps <+: outs i

/-! ### proofs -/

theorem merges_length {N : Nat} (ps : List (Nat × A)) : ∀ outs : Nat → List A, Merges N outs ps →
    ps.length = sumTo (fun i => (outs i).length) N := by
  induction ps with
  | nil =>
    intro outs h
    have : sumTo (fun i => (outs i).length) N = sumTo (fun _ => 0) N := sumTo_congr fun i hi => by
      rw [← h.2 i hi]
      rfl
    rw [this]
    clear this h
    induction N with
    | zero => rfl
    | succ n ih => rw [sumTo, ← ih]; rfl
  | cons y ps ih =>
    intro outs h
    obtain ⟨i, a⟩ := y
    have hi : i < N := h.1 (i, a) (by simp)
    have h' : Merges N (upd outs i (only i ps)) ps := by
      refine ⟨fun y hy => h.1 y (by simp [hy]), fun j hj => ?_⟩
      simp only [upd]
      split
      · next e => rw [e]
      · next e =>
        rw [← h.2 j hj, only_cons_other (fun e' => e e'.symm)]
    have e1 := ih _ h'
    have e2 := sumTo_upd (m := fun j => (outs j).length) (v := (only i ps).length) hi
    have e3 := h.2 i hi
    rw [only_cons_same] at e3
    rw [List.length_cons, e1]
    simp only [← e3, List.length_cons] at e2
    have e4 : sumTo (fun j => (upd outs i (only i ps) j).length) N = sumTo (upd (fun j => (outs j).length) i (only i ps).length) N :=
      sumTo_congr fun j _ => by
        simp only [upd]
        split <;> rfl
    rw [e4]
    omega

/-- Where the receiving thread is, if the senders have still to send `r`. -/
def Gather.Stands (net : Gather X C A V) (c0 : C) (outs r : Nat → List A) (sn t : Nat) (s : Gathered X C A) : Prop :=
  ∃ ps, (∀ y ∈ ps, y.1 < net.N) ∧
    ((∃ ch, s.done = false ∧ s.c = (ps.map (·.2)).foldl net.take c0 ∧ s.chan = ch.map (·.2) ∧ (∀ y ∈ ch, y.1 < net.N) ∧
      (∀ i < net.N, outs i = only i ps ++ only i ch ++ r i) ∧
      sn + ch.length + sumTo (fun i => (r i).length) net.N + 1 ≤ t) ∨
    (s.done = false ∧ net.ends s.c = true ∧ s.c = (ps.map (·.2)).foldl net.take c0 ∧ (∀ i < net.N, only i ps <+: outs i) ∧ sn ≤ t) ∨
    (s.done = true ∧ s.c = net.finish ((ps.map (·.2)).foldl net.take c0) ∧ (∀ i < net.N, only i ps = outs i) ∧ sn ≤ t))

structure Gather.Left (net : Gather X C A V) (c0 : C) (outs : Nat → List A) (v : Nat → V) (t : Nat) (s : Gathered X C A) :
    Prop where
  inv : ∃ (n : Nat → Nat) (r : Nat → List A), (∀ i < net.N, net.Gives i (n i) (s.x i) (r i) (v i)) ∧
    net.Stands c0 outs r (sumTo n net.N) t s

theorem gather_sender {net : Gather X C A V} {v : Nat → V} {n : Nat → Nat} {r : Nat → List A} {x : Nat → X} {i n' : Nat} {y : X} {l : List A}
    (hG : ∀ j < net.N, net.Gives j (n j) (x j) (r j) (v j)) (h : net.Gives i n' y l (v i)) :
    ∀ j < net.N, net.Gives j (upd n i n' j) (upd x i y j) (upd r i l j) (v j) := by
  intro j hj
  simp only [upd]
  by_cases hij : j = i
  · subst hij; rw [if_pos rfl, if_pos rfl, if_pos rfl]; exact h
  · rw [if_neg hij, if_neg hij, if_neg hij]; exact hG j hj

theorem gather_move {net : Gather X C A V} {c0 : C} {outs : Nat → List A} {v : Nat → V} {t : Nat} {s s' : Gathered X C A}
    (h : net.Left c0 outs v t s) (a : Option Nat) (e : net.move s a = some s') :
    ∃ t', t = t' + 1 ∧ net.Left c0 outs v t' s' := by
  obtain ⟨n, r, hG, ps, hps, hS⟩ := h.inv
  cases a with
  | none =>
    simp only [Gather.move] at e
    split at e
    · cases e
    · next hlive =>
      rw [not_or] at hlive
      rcases hS with ⟨ch, h1, h2, h3, h4, h5, h6⟩ | ⟨_, h2, _⟩ | ⟨h1, _⟩
      · cases ch with
        | cons y ch =>
          obtain ⟨j, b⟩ := y
          rw [h3, List.map_cons] at e
          cases e
          refine ⟨t - 1, by omega, ⟨n, r, hG, ps ++ [(j, b)], ?_, .inl ⟨ch, h1, ?_, rfl, fun y hy => h4 y (by simp [hy]), ?_, ?_⟩⟩⟩
          · intro y hy
            rcases List.mem_append.1 hy with hy | hy
            · exact hps y hy
            · exact h4 y (by rw [List.mem_singleton.1 hy]; simp)
          · simp only [List.map_append, List.foldl_append, h2]; rfl
          · intro i hi
            rw [h5 i hi, only_append, show (j, b) :: ch = [(j, b)] ++ ch from rfl, only_append, ← List.append_assoc (only i ps)]
          · rw [List.length_cons] at h6; omega
        | nil =>
          rw [h3, List.map_nil] at e
          simp only at e
          split at e
          · next hall =>
            cases e
            refine ⟨t - 1, by omega, ⟨n, r, hG, ps, hps, .inr (.inr ⟨rfl, by simp only [h2], fun i hi => ?_, by omega⟩)⟩⟩
            have hst := List.all_eq_true.1 hall i (List.mem_range.2 hi)
            have hr : r i = [] := by
              have hg := hG i hi
              generalize r i = ri at hg
              generalize n i = ni at hg
              cases hg with
              | stop _ => rfl
              | idle h0 _ => rw [h0] at hst; cases hst
              | put h0 _ => rw [h0] at hst; cases hst
            rw [h5 i hi, hr, List.append_nil, show only i ([] : List (Nat × A)) = [] from rfl, List.append_nil]
          · cases e
      · exact absurd h2 hlive.2
      · exact absurd h1 hlive.1
  | some i =>
    simp only [Gather.move] at e
    split at e
    case isFalse => cases e
    case isTrue hi =>
    have hg := hG i hi
    have hs := fun v => sumTo_upd (m := n) (v := v) hi
    generalize hn : n i = ni at hg
    generalize hr : r i = ri at hg
    cases hg with
    | stop h0 => rw [h0] at e; cases e
    | @idle n' _ y l _ h0 hg =>
      rw [h0] at e
      cases e
      have hsn := hs n'
      have hupd : upd r i ri = r := by rw [← hr]; exact upd_same r i
      refine ⟨t - 1, ?_, ⟨upd n i n', r, ?_, ps, hps, ?_⟩⟩
      · rcases hS with ⟨ch, _, _, _, _, _, h6⟩ | ⟨_, _, _, _, h6⟩ | ⟨_, _, _, h6⟩ <;> omega
      · have := gather_sender hG (y := y) hg
        rwa [hupd] at this
      · rcases hS with ⟨ch, h1, h2, h3, h4, h5, h6⟩ | ⟨h1, h2, h3, h4, h6⟩ | ⟨h1, h2, h3, h6⟩
        · exact .inl ⟨ch, h1, h2, h3, h4, h5, by omega⟩
        · exact .inr (.inl ⟨h1, h2, h3, h4, by omega⟩)
        · exact .inr (.inr ⟨h1, h2, h3, by omega⟩)
    | @put n' _ b y l _ h0 hg =>
      rw [h0] at e
      simp only at e
      have hsn := hs n'
      have hG' := gather_sender hG (y := y) hg
      split at e
      · next hgone =>
        cases e
        refine ⟨t - 1, ?_, ⟨upd n i n', upd r i l, hG', ps, hps, ?_⟩⟩
        · rcases hS with ⟨ch, _, _, _, _, _, h6⟩ | ⟨_, _, _, _, h6⟩ | ⟨_, _, _, h6⟩ <;> omega
        · rcases hS with ⟨ch, h1, h2, h3, h4, h5, h6⟩ | ⟨h1, h2, h3, h4, h6⟩ | ⟨h1, h2, h3, h6⟩
          · rcases hgone with hd | he
            · rw [h1] at hd; cases hd
            · refine .inr (.inl ⟨h1, he, h2, fun j hj => ⟨only j ch ++ r j, ?_⟩, by omega⟩)
              rw [h5 j hj, List.append_assoc]
          · exact .inr (.inl ⟨h1, h2, h3, h4, by omega⟩)
          · exact .inr (.inr ⟨h1, h2, h3, by omega⟩)
      · next hlive =>
        rw [not_or] at hlive
        split at e
        · cases e
          rcases hS with ⟨ch, h1, h2, h3, h4, h5, h6⟩ | ⟨_, h2, _⟩ | ⟨h1, _⟩
          · have hlen := sumTo_upd (m := fun j => (r j).length) (v := l.length) hi
            have hcong : sumTo (fun j => (upd r i l j).length) net.N = sumTo (upd (fun j => (r j).length) i l.length) net.N :=
              sumTo_congr fun j _ => by simp only [upd]; split <;> rfl
            simp only [hr, List.length_cons] at hlen
            refine ⟨t - 1, by omega, ⟨upd n i n', upd r i l, hG', ps, hps, .inl ⟨ch ++ [(i, b)], h1, h2, by simp [h3], ?_, ?_, ?_⟩⟩⟩
            · intro y hy
              rcases List.mem_append.1 hy with hy | hy
              · exact h4 y hy
              · rw [List.mem_singleton.1 hy]; exact hi
            · intro j hj
              rw [h5 j hj, only_append]
              simp only [upd]
              by_cases hij : j = i
              · subst hij
                rw [if_pos rfl, hr, only_cons_same, show only j ([] : List (Nat × A)) = [] from rfl]
                simp
              · rw [if_neg hij, only_cons_other (fun h => hij h.symm), show only j ([] : List (Nat × A)) = [] from rfl, List.append_nil]
            · rw [hcong, List.length_append, List.length_singleton]
              omega
          · exact absurd h2 hlive.2
          · exact absurd h1 hlive.1
        · cases e

theorem gather_exec {net : Gather X C A V} {c0 : C} {outs : Nat → List A} {v : Nat → V} (as : List (Option Nat)) :
    ∀ {t : Nat} {s s' : Gathered X C A}, net.Left c0 outs v t s → net.exec as s = some s' →
    ∃ t', t = t' + as.length ∧ net.Left c0 outs v t' s' := by
  induction as with
  | nil => intro t s s' h e; cases e; exact ⟨t, rfl, h⟩
  | cons a as ih =>
    intro t s s' h e
    simp only [Gather.exec] at e
    cases hm : net.move s a with
    | none => rw [hm] at e; cases e
    | some s1 =>
      rw [hm] at e
      obtain ⟨t1, e1, h1⟩ := gather_move h a hm
      obtain ⟨t2, e2, h2⟩ := ih h1 e
      exact ⟨t2, by rw [List.length_cons]; omega, h2⟩

/-- A thread that cannot move because the channel is full, or has ended. -/
theorem sender_stuck {net : Gather X C A V} {s : Gathered X C A} {i : Nat} (hi : i < net.N) (h : net.move s (some i) = none)
    (hroom : s.done = true ∨ net.ends s.c = true ∨ s.chan.length < net.cap) : (net.source i (s.x i)).stopped = true := by
  simp only [Gather.move, if_pos hi] at h
  cases hk : net.source i (s.x i) with
  | stop v => rfl
  | idle y => rw [hk] at h; cases h
  | put a y =>
    rw [hk] at h
    simp only at h
    split at h
    · cases h
    · next hl =>
      rw [not_or] at hl
      split at h
      · cases h
      · next hc =>
        rcases hroom with h' | h' | h'
        · exact absurd h' hl.1
        · exact absurd h' hl.2
        · exact absurd h' hc

/-- **C174** Whatever the threads do, and however they are scheduled: the receiving thread takes the items of all senders,
those of each sender in its order and none twice. Every execution ends. Where no thread can move, all senders have ended
as they do by themselves, and the receiver has taken all items and finished, or has ended before. -/
theorem c174_schedules (net : Gather X C A V) (hcap : 0 < net.cap) {n : Nat → Nat} {x : Nat → X} {outs : Nat → List A}
    {v : Nat → V} (c0 : C) (hG : ∀ i < net.N, net.Gives i (n i) (x i) (outs i) (v i))
    (as : List (Option Nat)) (s : Gathered X C A) (he : net.exec as (.start x c0) = some s) :
    as.length ≤ sumTo n net.N + sumTo (fun i => (outs i).length) net.N + 1 ∧
    (∃ ps, MergesPrefix net.N outs ps ∧ (s.c = (ps.map (·.2)).foldl net.take c0 ∨
      Merges net.N outs ps ∧ s.done = true ∧ s.c = net.finish ((ps.map (·.2)).foldl net.take c0))) ∧
    ((∀ a, net.move s a = none) → (∀ i < net.N, net.source i (s.x i) = .stop (v i)) ∧
      ∃ ps, Merges net.N outs ps ∧ s.c = net.finish ((ps.map (·.2)).foldl net.take c0) ∨
        MergesPrefix net.N outs ps ∧ s.c = (ps.map (·.2)).foldl net.take c0 ∧ net.ends s.c = true) := by
  have h0 : net.Left c0 outs v (sumTo n net.N + sumTo (fun i => (outs i).length) net.N + 1) (.start x c0) :=
    ⟨n, outs, hG, [], by simp, .inl ⟨[], rfl, rfl, rfl, by simp, fun i _ => rfl, by simp⟩⟩
  obtain ⟨t, ht, h⟩ := gather_exec as h0 he
  obtain ⟨n', r, hG', ps, hps, hS⟩ := h.inv
  refine ⟨by omega, ⟨ps, ⟨hps, fun i hi => ?_⟩, ?_⟩, fun hend => ?_⟩
  · rcases hS with ⟨ch, _, _, _, _, h5, _⟩ | ⟨_, _, _, h4, _⟩ | ⟨_, _, h3, _⟩
    · exact ⟨only i ch ++ r i, by rw [h5 i hi, List.append_assoc]⟩
    · exact h4 i hi
    · rw [h3 i hi]; exact List.prefix_refl _
  · rcases hS with ⟨ch, _, h2, _⟩ | ⟨_, _, h3, _⟩ | ⟨h1, h2, h3, _⟩
    · exact .inl h2
    · exact .inl h3
    · exact .inr ⟨⟨hps, h3⟩, h1, h2⟩
  · have hgone : s.done = true ∨ net.ends s.c = true := by
      rcases hS with ⟨ch, h1, h2, h3, h4, h5, _⟩ | ⟨_, h2, _⟩ | ⟨h1, _⟩
      · by_cases hend' : net.ends s.c = true
        · exact .inr hend'
        · exfalso
          have hm := hend none
          simp only [Gather.move] at hm
          rw [if_neg (by rw [h1]; simpa using hend')] at hm
          cases hc : s.chan with
          | cons a l => rw [hc] at hm; cases hm
          | nil =>
            rw [hc] at hm
            simp only at hm
            rw [if_pos] at hm
            · cases hm
            · refine List.all_eq_true.2 fun i hi => ?_
              have hi := List.mem_range.1 hi
              exact sender_stuck hi (hend (some i)) (.inr (.inr (by rw [hc]; exact hcap)))
      · exact .inr h2
      · exact .inl h1
    have hstop : ∀ i < net.N, net.source i (s.x i) = .stop (v i) := by
      intro i hi
      have hst := sender_stuck hi (hend (some i)) (by rcases hgone with h | h <;> simp [h])
      have hg := hG' i hi
      generalize r i = ri at hg
      generalize n' i = ni at hg
      cases hg with
      | stop h => exact h
      | idle h0 _ => rw [h0] at hst; cases hst
      | put h0 _ => rw [h0] at hst; cases hst
    refine ⟨hstop, ps, ?_⟩
    rcases hS with ⟨ch, h1, h2, h3, h4, h5, _⟩ | ⟨_, h2, h3, h4, _⟩ | ⟨_, h2, h3, _⟩
    · rcases hgone with hd | hd
      · rw [h1] at hd; cases hd
      · exact .inr ⟨⟨hps, fun i hi => ⟨only i ch ++ r i, by rw [h5 i hi, List.append_assoc]⟩⟩, h2, hd⟩
    · exact .inr ⟨⟨hps, h4⟩, h3, h2⟩
    · exact .inl ⟨⟨hps, h3⟩, h2⟩

/-! ### the recorder -/

/-- A thread that encodes: it has frames to encode; it receives packets, and then goes on with the frames or ends; it has a
packet to send (`n` bounds the packets received at a time). -/
inductive Encoding (E : Type)
  | next (fs : List Frame) (ce : EncContext E)
  | drain (rest : Option (List Frame)) (n : Nat) (ce : EncContext E)
  | send (p : Packet) (rest : Option (List Frame)) (n : Nat) (ce : EncContext E)

/-- `for f in frames { ce.send_frame(f)?; drain(); } ce.flush()?; drain();` where `drain` is `loop { match
ce.receive_packet() { Ok(p) => { p.stream_index = i; sender.send(p) }, Err(MoreDataNeeded) => break, Err(e) => return Err(e) } }` -/
def encoding (ec : Encoder E) (k i : Nat) : Encoding E → Sends (Encoding E) Packet (Rust (Except AppErr Unit × EncContext E))
  | .next [] ce =>
    match ce.flush ec with
    | .error e => .stop (.error e)
    | .ok (.error e, ce) => .stop (.ok (.error (.codec e), ce))
    | .ok (.ok (), ce) => .idle (.drain none k ce)
  | .next (f :: fs) ce =>
    match ce.sendFrame ec f with
    | .error e => .stop (.error e)
    | .ok (.error e, ce) => .stop (.ok (.error (.codec e), ce))
    | .ok (.ok (), ce) => .idle (.drain (some fs) k ce)
  | .drain _ 0 _ => .stop (.error .fuel)
  | .drain rest (n + 1) ce =>
    match ce.receivePacket ec with
    | .error e => .stop (.error e)
    | .ok (.ok p, ce) => .idle (.send (tag i p) rest n ce)
    | .ok (.error .MoreDataNeeded, ce) =>
      match rest with
      | some fs => .idle (.next fs ce)
      | none => .stop (.ok (.ok (), ce))
    | .ok (.error e, ce) => .stop (.ok (.error (.codec e), ce))
  | .send p rest n ce => .put p (.drain rest n ce)

/-- What the thread that writes has come to: a panic, an error, or the context for the next packet. -/
abbrev Writing (M W : Type) := Rust (Except AppErr Unit × Mux.Context M W)

def formatErr : Rust (Except Demux.Err Unit × Mux.Context M W) → Writing M W
  | .error e => .error e
  | .ok (.error e, cm) => .ok (.error (.format e), cm)
  | .ok (.ok (), cm) => .ok (.ok (), cm)

/-- `cm.write_header()?; for p in receiver { cm.write_packet(p)?; } cm.write_trailer()?;` with the threads that encode -/
def recorder (ec : Encoder E) (so : Mux.SinkOps W) (mx : Mux.Muxer M W) (k N cap : Nat) :
    Gather (Encoding E) (Writing M W) Packet (Rust (Except AppErr Unit × EncContext E)) where
  N := N
  cap := cap
  source := encoding ec k
  take
    | .ok (.ok (), cm), p => formatErr (cm.writePacket mx p)
    | r, _ => r
  finish
    | .ok (.ok (), cm) => formatErr (cm.writeTrailer so mx)
    | r => r
  ends
    | .ok (.ok (), _) => false
    | _ => true

section
variable {ec : Encoder E} {so : Mux.SinkOps W} {mx : Mux.Muxer M W} {k N cap : Nat}

theorem gives_drain {m : Machine S Frame Packet} {fine : Frame → Prop} {I : E → S → List Packet → Prop}
    (h : Encodes ec m fine I) (i : Nat) (rest : Option (List Frame)) (l : List Packet) (s : S)
    (hrest : ∀ e, I e s [] → match rest with
      | some fs => ∃ n e', (recorder ec so mx k N cap).Gives i n (.next fs ⟨e⟩) l (.ok (.ok (), ⟨e'⟩))
      | none => l = []) (q : List Packet) : ∀ (n : Nat) (e : E), q.length < n → I e s q →
    ∃ n' e', (recorder ec so mx k N cap).Gives i n' (.drain rest n ⟨e⟩) (q.map (tag i) ++ l) (.ok (.ok (), ⟨e'⟩)) := by
  induction q with
  | nil =>
    intro n e hn hI
    obtain ⟨n, rfl⟩ : ∃ j, n = j + 1 := ⟨n - 1, by simp at hn; omega⟩
    obtain ⟨e', g, hI'⟩ := h.empty hI
    have hr := hrest e' hI'
    cases rest with
    | none =>
      simp only at hr
      subst hr
      exact ⟨0, e', .stop (by simp only [recorder, encoding, EncContext.receivePacket, g, ok_bind, pure_eq_ok])⟩
    | some fs =>
      obtain ⟨n', e2, hg⟩ := hr
      exact ⟨n' + 1, e2, .idle (by simp only [recorder, encoding, EncContext.receivePacket, g, ok_bind, pure_eq_ok]) hg⟩
  | cons p q ih =>
    intro n e hn hI
    obtain ⟨n, rfl⟩ : ∃ j, n = j + 1 := ⟨n - 1, by simp at hn; omega⟩
    obtain ⟨e', g, hI'⟩ := h.receive hI
    obtain ⟨n', e2, hg⟩ := ih n e' (by simpa using hn) hI'
    exact ⟨n' + 1 + 1, e2, .idle (y := .send (tag i p) rest n ⟨e'⟩)
      (by simp only [recorder, encoding, EncContext.receivePacket, g, ok_bind, pure_eq_ok]) (.put rfl hg)⟩

/-- The thread of an encoder that computes a machine. -/
theorem gives_all {m : Machine S Frame Packet} {fine : Frame → Prop} {I : E → S → List Packet → Prop}
    (h : Encodes ec m fine I) (i : Nat) (fs : List Frame) : ∀ (s : S) (e : E), I e s [] → (∀ f ∈ fs, fine f) →
    (m.all s fs).length < k →
    ∃ n e', (recorder ec so mx k N cap).Gives i n (.next fs ⟨e⟩) ((m.all s fs).map (tag i)) (.ok (.ok (), ⟨e'⟩)) := by
  induction fs with
  | nil =>
    intro s e hI _ hk
    obtain ⟨e1, s1, g, hI1⟩ := h.flush hI
    obtain ⟨n, e2, hg⟩ := gives_drain (so := so) (mx := mx) (k := k) (N := N) (cap := cap) h i none [] s1 (fun _ _ => rfl)
      (m.finish s) k e1 hk hI1
    rw [List.append_nil] at hg
    exact ⟨n + 1, e2, .idle (by simp only [recorder, encoding, EncContext.flush, g, ok_bind, pure_eq_ok]) hg⟩
  | cons f fs ih =>
    intro s e hI hf hk
    rw [Machine.all, List.length_append] at hk
    obtain ⟨e1, g, hI1⟩ := h.send hI (hf f (by simp))
    obtain ⟨n, e2, hg⟩ := gives_drain (so := so) (mx := mx) (k := k) (N := N) (cap := cap) h i (some fs)
      ((m.all (m.step s f).2 fs).map (tag i)) (m.step s f).2
      (fun e hI => ih _ e hI (fun f hf' => hf f (by simp [hf'])) (by omega)) (m.step s f).1 k e1 (by omega) hI1
    refine ⟨n + 1, e2, .idle (by simp only [recorder, encoding, EncContext.sendFrame, g, ok_bind, pure_eq_ok]; rfl) ?_⟩
    rw [Machine.all, List.map_append]
    exact hg

/-- The thread that writes, when the writes succeed. -/
theorem written (ps : List Packet) : ∀ (cm c : Mux.Context M W) (ops : List Mux.Op) (xs : List (Except Demux.Err Unit)),
    cm.run so mx (ps.map .packet ++ ops) = .ok (List.replicate ps.length (.ok ()) ++ xs, c) →
    ∃ cm', ps.foldl (recorder ec so mx k N cap).take (.ok (.ok (), cm)) = .ok (.ok (), cm') ∧ cm'.run so mx ops = .ok (xs, c) := by
  induction ps with
  | nil => exact fun cm c ops xs h => ⟨cm, rfl, h⟩
  | cons p ps ih =>
    intro cm c ops xs h
    simp only [List.map_cons, List.cons_append, Mux.Context.run, Mux.Context.step] at h
    cases hw : cm.writePacket mx p with
    | error er => rw [hw] at h; cases h
    | ok r =>
      obtain ⟨y, cm1⟩ := r
      simp only [hw, ok_bind] at h
      cases hr : cm1.run so mx (ps.map .packet ++ ops) with
      | error er => rw [hr] at h; cases h
      | ok r =>
        obtain ⟨ys, c'⟩ := r
        simp only [hr, ok_bind, pure_eq_ok, List.length_cons, List.replicate_succ, List.cons_append, Except.ok.injEq,
          Prod.mk.injEq, List.cons.injEq] at h
        obtain ⟨⟨rfl, rfl⟩, rfl⟩ := h
        obtain ⟨cm', a1, a2⟩ := ih cm1 c' ops xs hr
        refine ⟨cm', ?_, a2⟩
        rw [List.foldl_cons, show (recorder ec so mx k N cap).take (.ok (.ok (), cm)) p = .ok (.ok (), cm1) by
          simp only [recorder, hw, formatErr]]
        exact a1

end

/-- What has been taken can be completed. -/
theorem merges_complete {N : Nat} {outs : Nat → List A} {ps : List (Nat × A)} (h : MergesPrefix N outs ps) :
    ∃ qs, Merges N outs (ps ++ qs) := by
  refine ⟨finishFrom (fun _ => (⟨fun l _ => ([], l), fun l => l⟩ : Machine (List A) A A))
    (fun i => (outs i).drop (only i ps).length) 0 N, fun y hy => ?_, fun i hi => ?_⟩
  · rcases List.mem_append.1 hy with hy | hy
    · exact h.1 y hy
    · have := keys_finish _ _ _ _ y hy
      omega
  · rw [only_append, only_finish, if_pos (by omega)]
    obtain ⟨l, hl⟩ := h.2 i hi
    rw [← hl]
    simp

theorem mem_only {i : Nat} {a : A} {ps : List (Nat × A)} (h : (i, a) ∈ ps) : a ∈ only i ps := by
  simp only [only, List.mem_filterMap]
  exact ⟨(i, a), h, by simp⟩

/-- **C174** A recorder encodes each stream in a thread of its own and writes the packets in another, with a channel of any
size. Encoders, format and decoders are as in C163. In every execution that has come to its end all threads have succeeded,
and the file written, though it depends on the schedule, plays for every stream the frames of this stream, all of them, in
order. Every execution comes to its end. -/
theorem c174_recording (ec : Encoder E) (dc : Decoder C) (dreg : Codecs C)
    (F : Format D) (hF : F.Framed) (hdr : M → List U8 × M) (pkt : M → Packet → List U8 × M)
    (trl : M → List U8 × M) (wire : Packet → Packet) (info : GlobalInfo) (m : M) (d : D) (good : Packet → Prop)
    (sync : M → D → Prop) (h : Undoes F hdr pkt trl wire info m d good sync)
    (hw : ∀ p, (wire p).stream_index = p.stream_index)
    (em : Nat → Machine S Frame Packet) (dm : Nat → Machine T Packet Frame) (fine : Nat → Frame → Prop)
    (I : Nat → E → S → List Packet → Prop) (J : Nat → C → T → List Frame → Prop) (s0 : Nat → S) (t0 : Nat → T)
    (hE : ∀ i < info.streams.length, Encodes ec (em i) (fine i) (I i))
    (hD : ∀ i < info.streams.length, DecodesAll dc (dm i) (J i))
    (e0 : Nat → E) (he0 : ∀ i < info.streams.length, I i (e0 i) (s0 i) [])
    (hst : ∀ (j : Nat) (st : Stream), info.streams[j]? = some st → ∃ cname dd x d1 d2,
        st.params.codec_id = some cname ∧ dreg.byName cname = .ok (some dd) ∧ st.params.extradata = some x ∧
        dc.setExtradata dd.create x = .ok d1 ∧ dc.configure d1 = .ok (.ok (), d2) ∧ J j d2 (t0 j) [])
    (fs : Nat → List Frame) (hfs : ∀ i < info.streams.length, ∀ f ∈ fs i, fine i f)
    (hgood : ∀ i < info.streams.length, ∀ p ∈ (em i).all (s0 i) (fs i), good (tag i p))
    (hinv : ∀ i < info.streams.length,
      (dm i).all (t0 i) (((em i).all (s0 i) (fs i)).map fun p => kept info.streams wire (tag i p)) = fs i)
    (sink : Sink) (h0 : sink.data = [] ∧ sink.pos = 0)
    (hq : ∀ c, (sink.script c).fail = none ∧ 0 < (sink.script c).len)
    (acts : Nat → Act) (ha : ∀ c, (acts c).fail = none) (cap : Nat)
    (room : Nat) (hroom : 0 < room) (k : Nat) (hk : ∀ i < info.streams.length, ((em i).all (s0 i) (fs i)).length < k)
    (fuel : Nat) (hfuel : ∀ ps, Merges info.streams.length (fun i => ((em i).all (s0 i) (fs i)).map (tag i)) ps →
      (Mux.fileBytes hdr pkt trl m (ps.map (·.2))).length < fuel)
    (st : Nat → Encoding E) (hstart : ∀ i < info.streams.length, st i = .next (fs i) ⟨e0 i⟩) :
    ∃ cm, (Mux.Context.new m (Mux.Writer.new sink)).writeHeader (Mux.bytesMuxer fuel hdr pkt trl) = .ok (.ok (), cm) ∧
    ∃ total, ∀ as s, (recorder ec Mux.sinkOps (Mux.bytesMuxer fuel hdr pkt trl) k info.streams.length room).exec as
        (.start st (.ok (.ok (), cm))) = some s →
      as.length ≤ total ∧
      ((∀ a, (recorder ec Mux.sinkOps (Mux.bytesMuxer fuel hdr pkt trl) k info.streams.length room).move s a = none) →
        (∀ i < info.streams.length, ∃ e, encoding ec k i (s.x i) = .stop (.ok (.ok (), ⟨e⟩))) ∧
        ∃ c ps, s.c = .ok (.ok (), c) ∧
          Merges info.streams.length (fun i => ((em i).all (s0 i) (fs i)).map (tag i)) ps ∧
          c.intoWriter.writer.data = Mux.fileBytes hdr pkt trl m (ps.map (·.2)) ∧
        ∀ file, c.intoWriter.writer.data = file → ∀ n k', (∀ i < info.streams.length, (fs i).length < k') → ps.length < n →
        ∃ c1 c2 cds cds' out,
          readHeaders F.demuxer accBuffered (file.length + 2)
            (Context.new d (Acc.withCapacity cap ⟨file, 0, acts, 0⟩)) = .ok (.ok (), c1) ∧
          openDecoders dc dreg c1.info.streams = .ok (.ok cds) ∧
          playAll dc F.demuxer accBuffered (file.length + 1) k' n cds c1 = .ok (.ok out, cds', c2) ∧
          ∀ i < info.streams.length, only i out = fs i) := by
  have hGex : ∀ i, ∃ ne : Nat × E, i < info.streams.length →
      (recorder ec Mux.sinkOps (Mux.bytesMuxer fuel hdr pkt trl) k info.streams.length room).Gives i ne.1 (st i)
        (((em i).all (s0 i) (fs i)).map (tag i)) (.ok (.ok (), ⟨ne.2⟩)) := by
    intro i
    by_cases hi : i < info.streams.length
    · obtain ⟨n, e, hg⟩ := gives_all (so := Mux.sinkOps) (mx := Mux.bytesMuxer fuel hdr pkt trl) (k := k)
        (N := info.streams.length) (cap := room) (hE i hi) i (fs i) (s0 i) (e0 i) (he0 i hi) (hfs i hi) (hk i hi)
      exact ⟨(n, e), fun _ => by rw [hstart i hi]; exact hg⟩
    · exact ⟨(0, e0 i), fun h' => absurd h' hi⟩
  obtain ⟨ne, hG⟩ := Classical.axiomOfChoice hGex
  obtain ⟨cm, hcm⟩ : ∃ cm, (Mux.Context.new m (Mux.Writer.new sink)).writeHeader (Mux.bytesMuxer fuel hdr pkt trl) =
      .ok (.ok (), cm) := by
    obtain ⟨qs, hqs⟩ := merges_complete (N := info.streams.length) (outs := fun i => ((em i).all (s0 i) (fs i)).map (tag i))
      (ps := []) ⟨by simp, fun i _ => List.nil_prefix⟩
    obtain ⟨c, hm, _⟩ := Mux.c39_file fuel hdr pkt trl m sink h0 hq _ (hfuel _ hqs)
    simp only [List.cons_append, Mux.Context.run, Mux.Context.step] at hm
    cases hh : (Mux.Context.new m (Mux.Writer.new sink)).writeHeader (Mux.bytesMuxer fuel hdr pkt trl) with
    | error er => rw [hh] at hm; cases hm
    | ok r =>
      obtain ⟨y, cm⟩ := r
      simp only [hh, ok_bind] at hm
      cases hr1 : cm.run Mux.sinkOps (Mux.bytesMuxer fuel hdr pkt trl) ((([] ++ qs).map fun y : Nat × Packet => y.2).map .packet ++ [.trailer]) with
      | error er => rw [hr1] at hm; cases hm
      | ok r =>
        simp only [hr1, ok_bind, pure_eq_ok, List.replicate_succ, Except.ok.injEq, Prod.mk.injEq, List.cons.injEq] at hm
        exact ⟨cm, by rw [hm.1.1]⟩
  refine ⟨cm, hcm, sumTo (fun i => (ne i).1) info.streams.length +
    sumTo (fun i => (((em i).all (s0 i) (fs i)).map (tag i)).length) info.streams.length + 1, fun as s he => ?_⟩
  obtain ⟨b1, _, b3⟩ := c174_schedules (recorder ec Mux.sinkOps (Mux.bytesMuxer fuel hdr pkt trl) k info.streams.length room)
    hroom (.ok (.ok (), cm)) (n := fun i => (ne i).1) (v := fun i => .ok (.ok (), ⟨(ne i).2⟩)) hG as s he
  refine ⟨b1, fun hend => ?_⟩
  obtain ⟨b4, b5⟩ := b3 hend
  refine ⟨fun i hi => ⟨(ne i).2, b4 i hi⟩, ?_⟩
  -- what the sink holds when all packets of a merge are written
  have hfile : ∀ ps, Merges info.streams.length (fun i => ((em i).all (s0 i) (fs i)).map (tag i)) ps →
      (∀ p ∈ ps.map (·.2), good p) ∧ ∀ y ∈ ps, y.2.stream_index = y.1 := by
    intro ps hps
    have hmem : ∀ y ∈ ps, ∃ p ∈ (em y.1).all (s0 y.1) (fs y.1), tag y.1 p = y.2 := by
      intro y hy
      have := mem_only (i := y.1) (a := y.2) hy
      rw [hps.2 y.1 (hps.1 y hy)] at this
      obtain ⟨p, h1, h2⟩ := List.mem_map.1 this
      exact ⟨p, h1, h2⟩
    refine ⟨fun p hp => ?_, fun y hy => ?_⟩
    · obtain ⟨y, hy, rfl⟩ := List.mem_map.1 hp
      obtain ⟨p, h1, h2⟩ := hmem y hy
      rw [← h2]
      exact hgood y.1 (hps.1 y hy) p h1
    · obtain ⟨p, _, h2⟩ := hmem y hy
      rw [← h2]
      rfl
  have hrun : ∀ ps, Merges info.streams.length (fun i => ((em i).all (s0 i) (fs i)).map (tag i)) ps →
      ∃ c, cm.run Mux.sinkOps (Mux.bytesMuxer fuel hdr pkt trl) ((ps.map (·.2)).map .packet ++ [.trailer]) =
        .ok (List.replicate (ps.map (·.2)).length (.ok ()) ++ [.ok ()], c) ∧
        (Mux.Context.new m (Mux.Writer.new sink)).run Mux.sinkOps (Mux.bytesMuxer fuel hdr pkt trl)
          (.header :: (ps.map (·.2)).map .packet ++ [.trailer]) = .ok (List.replicate ((ps.map (·.2)).length + 2) (.ok ()), c) := by
    intro ps hps
    obtain ⟨c, hm, _⟩ := Mux.c39_file fuel hdr pkt trl m sink h0 hq (ps.map (·.2)) (hfuel ps hps)
    have hm0 := hm
    simp only [List.cons_append, Mux.Context.run, Mux.Context.step, hcm, ok_bind] at hm
    cases hr1 : cm.run Mux.sinkOps (Mux.bytesMuxer fuel hdr pkt trl) ((ps.map (·.2)).map .packet ++ [.trailer]) with
    | error er => rw [hr1] at hm; cases hm
    | ok r =>
      obtain ⟨ys, c'⟩ := r
      simp only [hr1, ok_bind, pure_eq_ok, List.replicate_succ, Except.ok.injEq, Prod.mk.injEq, List.cons.injEq] at hm
      obtain ⟨⟨_, hys⟩, rfl⟩ := hm
      refine ⟨c', ?_, hm0⟩
      rw [hys, ← List.replicate_succ, List.replicate_succ']
  obtain ⟨ps, ⟨hps, hc⟩ | ⟨hps, hc, hends⟩⟩ := b5
  · obtain ⟨c, hr, hr0⟩ := hrun ps hps
    obtain ⟨cm', w1, w2⟩ := written (ec := ec) (k := k) (N := info.streams.length) (cap := room) _ cm c _ _ hr
    have hcs : s.c = .ok (.ok (), c) := by
      rw [hc, w1]
      simp only [Mux.Context.run, Mux.Context.step] at w2
      simp only [recorder]
      cases ht : cm'.writeTrailer Mux.sinkOps (Mux.bytesMuxer fuel hdr pkt trl) with
      | error er => rw [ht] at w2; cases w2
      | ok r =>
        obtain ⟨x, cm3⟩ := r
        rw [ht] at w2
        cases w2
        rfl
    obtain ⟨hg, hidx⟩ := hfile ps hps
    obtain ⟨cb, hcb, hbytes, _⟩ := Mux.c39_file fuel hdr pkt trl m sink h0 hq (ps.map (·.2)) (hfuel ps hps)
    rw [hr0] at hcb
    cases hcb
    refine ⟨c, ps, hcs, hps, hbytes, ?_⟩
    intro file hfl n k' hk' hn
    obtain ⟨c', hm, hr⟩ := c91_roundtrip F hF hdr pkt trl wire info m d good sync h (ps.map (·.2)) hg sink h0 hq fuel
      (hfuel ps hps) acts ha cap 1
    rw [hr0] at hm
    cases hm
    obtain ⟨c1, c2, r1, r2, r3⟩ := hr file hfl
    obtain ⟨cds, o1, o2, o3⟩ := openDecoders_run (dc := dc) (reg := dreg) (fun j e => J j e (t0 j) []) info.streams 0 (by
      intro j st hj
      rw [Nat.zero_add]
      exact hst j st hj)
    simp only [Nat.zero_add] at o3
    have honly : ∀ i < info.streams.length,
        (dm i).all (t0 i) (only i (ps.map fun y => (y.1, kept info.streams wire y.2))) = fs i := by
      intro i hi
      rw [only_map i (fun _ p => kept info.streams wire p), hps.2 i hi, List.map_map]
      exact hinv i hi
    obtain ⟨cds', hd'⟩ := playAll_run hD (dmx := F.demuxer) (bf := accBuffered) (fuel := file.length + 1) (k := k')
      (ps.map fun y => (y.1, kept info.streams wire y.2)) n cds t0 c1 c2 (by rw [List.length_map]; exact hn) o2
      (fun j hj => by rw [honly j hj]; exact hk' j hj) o3 (by
        intro y hy
        obtain ⟨z, hz, rfl⟩ := List.mem_map.1 hy
        refine ⟨hps.1 z hz, ?_⟩
        show (kept info.streams wire z.2).stream_index = z.1
        rw [← hidx z hz]
        exact hw _) (by
        rw [List.length_map] at r3 ⊢
        rw [r3, List.map_map, List.map_map]
        rfl)
    refine ⟨c1, c2, cds, cds', _, r1, by rw [r2]; exact o1, hd', ?_⟩
    intro i hi
    rw [only_all dm hi, honly i hi]
  · exfalso
    obtain ⟨qs, hqs⟩ := merges_complete hps
    obtain ⟨c, hr, _⟩ := hrun _ hqs
    rw [List.map_append, List.map_append, List.append_assoc, List.length_append, ← List.replicate_append_replicate,
      List.append_assoc] at hr
    obtain ⟨cm', w1, _⟩ := written (ec := ec) (k := k) (N := info.streams.length) (cap := room) _ cm c _ _ hr
    rw [hc, w1] at hends
    cases hends

/-! ### example: the two streams of C163's example -/

def Gather.drive (net : Gather X C A V) (order : List (Option Nat)) : Nat → Gathered X C A → List (Option Nat) × Gathered X C A
  | 0, s => ([], s)
  | n + 1, s =>
    match order.findSome? (fun a => (net.move s a).map fun s => (a, s)) with
    | none => ([], s)
    | some (a, s) =>
      let r := net.drive order n s
      (a :: r.1, r.2)

def twoEncoding (i : Nat) : Encoding (Nat × Option Frame × List Packet) := .next (only i twoFrames) ⟨(i, none, [])⟩

def twoOuts (i : Nat) : List Packet := ((whichE i).all none (only i twoFrames)).map (tag i)

/-- The file for an order in which the threads get their turns, and what it plays. -/
def twoRecorded (order : List (Option Nat)) (room : Nat) : Option (List U8 × List (Nat × Frame)) :=
  match (Mux.Context.new 0 (Mux.Writer.new ⟨[], 0, fun k => ⟨none, 1 + k % 2⟩, 0, 0⟩)).writeHeader (Mux.bytesMuxer 40 avHdr twoPkt avTrl) with
  | .ok (.ok (), cm) =>
    let s := ((recorder twoEncoder Mux.sinkOps (Mux.bytesMuxer 40 avHdr twoPkt avTrl) 9 2 room).drive order 99
      (.start twoEncoding (.ok (.ok (), cm)))).2
    match s.c with
    | .ok (.ok (), c) =>
      match readHeaders twoFormat.demuxer accBuffered 40 (Context.new () (Acc.withCapacity 1 ⟨c.intoWriter.writer.data, 0, sampleActs, 0⟩)) with
      | .ok (.ok (), c1) =>
        match openDecoders twoDecoder (Codecs.fromList twoDecoders) c1.info.streams with
        | .ok (.ok cds) =>
          match playAll twoDecoder twoFormat.demuxer accBuffered 40 9 9 cds c1 with
          | .ok (.ok out, _, _) => some (c.intoWriter.writer.data, out)
          | _ => none
        | _ => none
      | _ => none
    | _ => none
  | _ => none

/-- Two schedules, two files; the frames of each stream are the same. -/
example : twoRecorded [none, some 0, some 1] 1 = some ([65, 86, 1, 0, 9, 1, 0, 7, 1, 0, 5, 2, 1, 8, 8, 1, 1, 6, 0],
      [(0, pcmFrame [7]), (0, pcmFrame [9]), (1, pcmFrame [8, 8]), (1, pcmFrame [6]), (0, pcmFrame [5])]) ∧
    twoRecorded [some 1, none, some 0] 1 = some ([65, 86, 2, 1, 8, 8, 1, 1, 6, 1, 0, 9, 1, 0, 7, 1, 0, 5, 0],
      [(1, pcmFrame [8, 8]), (1, pcmFrame [6]), (0, pcmFrame [7]), (0, pcmFrame [9]), (0, pcmFrame [5])]) := by
  decide +kernel

/-- The threads of the example send what `c174_schedules` asks for. -/
example (i : Nat) (so : Mux.SinkOps Sink) (mx : Mux.Muxer Nat Sink) (hi : ((whichE i).all none (only i twoFrames)).length < 9) :
    ∃ n e', (recorder twoEncoder so mx 9 2 1).Gives i n (twoEncoding i) (twoOuts i) (.ok (.ok (), ⟨e'⟩)) :=
  gives_all (two_encodes i) i _ none _ rfl (fun _ _ => trivial) hi

/-- The sink fails from its seventh write on: the thread that writes ends, and the others end as they would without it. -/
example : (match (Mux.Context.new 0 (Mux.Writer.new ⟨[], 0, fun k => ⟨if k < 6 then none else some (.other 5), 1⟩, 0, 0⟩)).writeHeader
      (Mux.bytesMuxer 40 avHdr twoPkt avTrl) with
    | .ok (.ok (), cm) =>
      let s := ((recorder twoEncoder Mux.sinkOps (Mux.bytesMuxer 40 avHdr twoPkt avTrl) 9 2 1).drive [none, some 0, some 1] 99
        (.start twoEncoding (.ok (.ok (), cm)))).2
      (match s.c with
      | .ok (.error (.format (.Io _)), c) => decide (c.intoWriter.writer.data = [65, 86, 1, 0, 9, 1])
      | _ => false) && decide (s.done = false) && (encoding twoEncoder 9 0 (s.x 0)).stopped && (encoding twoEncoder 9 1 (s.x 1)).stopped
    | _ => false) = true := by decide +kernel

theorem two_short (ps : List Packet) : ∀ m, (∀ p ∈ ps, p.data.length ≤ 2) →
    (Mux.packetBytes twoPkt m ps).1.length ≤ 4 * ps.length := by
  induction ps with
  | nil => intro m _; simp [Mux.packetBytes]
  | cons p ps ih =>
    intro m h
    have h1 := h p (by simp)
    have h2 := ih (twoPkt m p).2 fun p hp => h p (by simp [hp])
    simp only [Mux.packetBytes, List.length_append, List.length_cons]
    have h3 : (twoPkt m p).1.length = p.data.length + 2 := by simp [twoPkt]
    omega

/-- The hypotheses of `c174_recording`. -/
example : (∀ p, (twoWire p).stream_index = p.stream_index) ∧
    (∀ (j : Nat) (st : Stream), twoInfo.streams[j]? = some st → ∃ cname dd x d1 d2,
      st.params.codec_id = some cname ∧ (Codecs.fromList twoDecoders).byName cname = .ok (some dd) ∧
      st.params.extradata = some x ∧ twoDecoder.setExtradata dd.create x = .ok d1 ∧
      twoDecoder.configure d1 = .ok (.ok (), d2) ∧ ∃ x, d2 = (j, x, none, [])) ∧
    (∀ i < twoInfo.streams.length, ∀ p ∈ (whichE i).all none (only i twoFrames), 0 < (tag i p).data.length ∧
      (tag i p).data.length < 256 ∧ 0 ≤ (tag i p).stream_index ∧ (tag i p).stream_index < 256) ∧
    (∀ i < twoInfo.streams.length,
      (whichD i).all none (((whichE i).all none (only i twoFrames)).map fun p => kept twoInfo.streams twoWire (tag i p)) =
        only i twoFrames) ∧
    (∀ i < twoInfo.streams.length, ((whichE i).all none (only i twoFrames)).length < 9) ∧
    (∀ ps, Merges twoInfo.streams.length (fun i => ((whichE i).all none (only i twoFrames)).map (tag i)) ps →
      (Mux.fileBytes avHdr twoPkt avTrl 0 (ps.map (·.2))).length < 40) := by
  refine ⟨fun _ => rfl, ?_, by decide +kernel, by decide +kernel, by decide +kernel, ?_⟩
  · intro j st h
    match j with
    | 0 => cases h; exact ⟨_, _, _, _, _, rfl, rfl, rfl, rfl, rfl, _, rfl⟩
    | 1 => cases h; exact ⟨_, _, _, _, _, rfl, rfl, rfl, rfl, rfl, _, rfl⟩
    | j + 2 => cases h
  · intro ps h
    have hl := merges_length ps _ h
    have h5 : sumTo (fun i => (((whichE i).all none (only i twoFrames)).map (tag i)).length) twoInfo.streams.length = 5 := by
      decide +kernel
    have hd : ∀ i < twoInfo.streams.length, ∀ p ∈ ((whichE i).all none (only i twoFrames)).map (tag i), p.data.length ≤ 2 := by
      decide +kernel
    have := two_short (ps.map (·.2)) (avHdr 0).2 (by
      intro p hp
      obtain ⟨y, hy, rfl⟩ := List.mem_map.1 hp
      have hm := mem_only (i := y.1) (a := y.2) hy
      rw [h.2 y.1 (h.1 y hy)] at hm
      exact hd y.1 (h.1 y hy) y.2 hm)
    rw [List.length_map, hl, h5] at this
    have ht : ∀ m, (avTrl m).1.length = 1 := fun _ => rfl
    have hh : (avHdr 0).1.length = 2 := rfl
    simp only [Mux.fileBytes, List.length_append, ht, hh]
    omega

end Verif.RoundTrip
