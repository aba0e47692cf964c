import Verif.RoundTrip.Recording

/-!
# C174: every order of the packets is recorded in some schedule

`c174_schedules` says that a recording is one of the merges of the streams' packets. Here: each of them is a recording, so
nothing more can be said of the file than that.
-/

namespace Verif.RoundTrip
open Verif Verif.Io Verif.Frame Verif.Stream Verif.Packet Verif.Demux Verif.Codec

variable {M W D R E C S T X A B V U : Type}

theorem gather_exec_append (net : Gather X C A V) (as bs : List (Option Nat)) : ∀ (s s1 : Gathered X C A),
    net.exec as s = some s1 → net.exec (as ++ bs) s = net.exec bs s1 := by
  induction as with
  | nil => intro s s1 h; cases h; rfl
  | cons a as ih =>
    intro s s1 h
    simp only [Gather.exec, List.cons_append] at h ⊢
    cases hm : net.move s a with
    | none => rw [hm] at h; cases h
    | some s2 => rw [hm] at h; exact ih s2 s1 h

/-- The sender moves until it has its next item in the channel. -/
theorem gather_send {net : Gather X C A V} (hcap : 0 < net.cap) {i n : Nat} {y : X} {l0 : List A} {v : V} (hi : i < net.N)
    (hg : net.Gives i n y l0 v) : ∀ (a : A) (l : List A), l0 = a :: l → ∀ (x : Nat → X) (c : C), x i = y → net.ends c = false →
    ∃ as n' y', net.exec as ⟨x, [], c, false⟩ = some ⟨upd x i y', [a], c, false⟩ ∧ net.Gives i n' y' l v := by
  induction hg with
  | stop _ => intro a l e; cases e
  | @idle n y z l1 v h0 hg ih =>
    intro a l e x c hx hc
    obtain ⟨as, n', y', e1, e2⟩ := ih a l e (upd x i z) c (by simp [upd]) hc
    refine ⟨some i :: as, n', y', ?_, e2⟩
    simp only [Gather.exec, Gather.move, if_pos hi, hx, h0, e1]
    congr 2
    funext j
    simp only [upd]
    split <;> rfl
  | @put n y b z l1 v h0 hg ih =>
    intro a l e x c hx hc
    cases e
    refine ⟨[some i], n, z, ?_, hg⟩
    simp only [Gather.exec, Gather.move, if_pos hi, hx, h0]
    rw [if_neg (by simp [hc]), if_pos (by simpa using hcap)]
    rfl

/-- The sender has sent everything and ends. -/
theorem gather_end {net : Gather X C A V} {i n : Nat} {y : X} {l0 : List A} {v : V} (hi : i < net.N)
    (hg : net.Gives i n y l0 v) : l0 = [] → ∀ (x : Nat → X) (c : C), x i = y →
    ∃ as y', net.exec as ⟨x, [], c, false⟩ = some ⟨upd x i y', [], c, false⟩ ∧ net.source i y' = .stop v := by
  induction hg with
  | @stop y v h0 =>
    intro _ x c hx
    exact ⟨[], y, by rw [← hx, upd_same]; rfl, h0⟩
  | @idle n y z l1 v h0 hg ih =>
    intro e x c hx
    obtain ⟨as, y', e1, e2⟩ := ih e (upd x i z) c (by simp [upd])
    refine ⟨some i :: as, y', ?_, e2⟩
    simp only [Gather.exec, Gather.move, if_pos hi, hx, h0, e1]
    congr 2
    funext j
    simp only [upd]
    split <;> rfl
  | put _ _ _ => intro e; cases e

/-- All senders below `k` end. -/
theorem gather_ends {net : Gather X C A V} {v : Nat → V} (c : C) : ∀ (k : Nat), k ≤ net.N → ∀ (n : Nat → Nat) (x : Nat → X),
    (∀ i < net.N, net.Gives i (n i) (x i) [] (v i)) →
    ∃ as x', net.exec as ⟨x, [], c, false⟩ = some ⟨x', [], c, false⟩ ∧ (∀ i < k, net.source i (x' i) = .stop (v i)) ∧
      ∀ i, k ≤ i → x' i = x i := by
  intro k
  induction k with
  | zero => intro _ n x _; exact ⟨[], x, rfl, fun i h => absurd h (Nat.not_lt_zero i), fun _ _ => rfl⟩
  | succ k ih =>
    intro hk n x hG
    obtain ⟨as, x1, e1, e2, e3⟩ := ih (by omega) n x hG
    obtain ⟨bs, y, f1, f2⟩ := gather_end (i := k) (by omega) (hG k (by omega)) rfl x1 c (e3 k (by omega))
    refine ⟨as ++ bs, upd x1 k y, by rw [gather_exec_append net as bs _ _ e1, f1], fun i hi => ?_, fun i hi => ?_⟩
    · simp only [upd]
      split
      · next e => subst e; exact f2
      · next e => exact e2 i (by omega)
    · simp only [upd]
      rw [if_neg (by omega)]
      exact e3 i (by omega)

/-- A merge is taken item by item. -/
theorem gather_merge {net : Gather X C A V} (hcap : 0 < net.cap) {v : Nat → V} (ps : List (Nat × A)) :
    ∀ (n : Nat → Nat) (x : Nat → X) (outs : Nat → List A) (c : C),
    (∀ i < net.N, net.Gives i (n i) (x i) (outs i) (v i)) → Merges net.N outs ps →
    (∀ qs, qs <+: ps → net.ends ((qs.map (·.2)).foldl net.take c) = false) →
    ∃ (as : List (Option Nat)) (x' : Nat → X) (n' : Nat → Nat), net.exec as ⟨x, [], c, false⟩ = some ⟨x', [], (ps.map (·.2)).foldl net.take c, false⟩ ∧
      ∀ i < net.N, net.Gives i (n' i) (x' i) [] (v i) := by
  induction ps with
  | nil =>
    intro n x outs c hG hps _
    refine ⟨[], x, n, rfl, fun i hi => ?_⟩
    have := hG i hi
    rwa [← hps.2 i hi] at this
  | cons p ps ih =>
    obtain ⟨i, a⟩ := p
    intro n x outs c hG hps hlive
    have hi : i < net.N := hps.1 (i, a) (by simp)
    have ho := hps.2 i hi
    rw [only_cons_same] at ho
    have hg := hG i hi
    obtain ⟨as, n', y', e1, e2⟩ := gather_send hcap hi hg a (only i ps) ho.symm x c rfl (hlive [] List.nil_prefix)
    have hG' := gather_sender hG (y := y') e2
    have hm : Merges net.N (upd outs i (only i ps)) ps := by
      refine ⟨fun y hy => hps.1 y (by simp [hy]), fun j hj => ?_⟩
      simp only [upd]
      split
      · next e => rw [e]
      · next e => rw [← hps.2 j hj, only_cons_other (fun h => e h.symm)]
    have hl0 := hlive [(i, a)] ⟨ps, rfl⟩
    obtain ⟨bs, x', n2, f1, f2⟩ := ih _ _ _ (net.take c a) hG' hm (by
      intro qs hqs
      obtain ⟨l, hl⟩ := hqs
      exact hlive ((i, a) :: qs) ⟨l, by rw [← hl]; rfl⟩)
    refine ⟨as ++ (none :: bs), x', n2, ?_, f2⟩
    rw [gather_exec_append net as _ _ _ e1]
    simp only [Gather.exec, Gather.move]
    rw [if_neg (by have := hlive [] List.nil_prefix; simp only [List.map_nil, List.foldl_nil] at this; simp [this])]
    exact f1

/-- **C174** Each merge of what the threads send is what the receiving thread gets in some schedule, if it does not end
before: there is an execution that has come to its end and in which it has taken the items in this order. -/
theorem c174_every (net : Gather X C A V) (hcap : 0 < net.cap) {n : Nat → Nat} {x : Nat → X} {outs : Nat → List A}
    {v : Nat → V} (c0 : C) (hG : ∀ i < net.N, net.Gives i (n i) (x i) (outs i) (v i))
    (ps : List (Nat × A)) (hps : Merges net.N outs ps)
    (hlive : ∀ qs, qs <+: ps → net.ends ((qs.map (·.2)).foldl net.take c0) = false) :
    ∃ as s, net.exec as (.start x c0) = some s ∧ (∀ a, net.move s a = none) ∧
      s.c = net.finish ((ps.map (·.2)).foldl net.take c0) := by
  obtain ⟨as, x1, n1, e1, e2⟩ := gather_merge hcap ps n x outs c0 hG hps hlive
  obtain ⟨bs, x2, f1, f2, _⟩ := gather_ends (v := v) ((ps.map (·.2)).foldl net.take c0) net.N (Nat.le_refl _) n1 x1 e2
  have hf : net.exec ((as ++ bs) ++ [none]) (.start x c0) =
      some ⟨x2, [], net.finish ((ps.map (·.2)).foldl net.take c0), true⟩ := by
    have h1 : net.exec (as ++ bs) (.start x c0) = some ⟨x2, [], (ps.map (·.2)).foldl net.take c0, false⟩ := by
      rw [gather_exec_append net as bs (.start x c0) _ e1, f1]
    rw [gather_exec_append net _ [none] (.start x c0) _ h1]
    have hend := hlive ps (List.prefix_refl _)
    simp only [Gather.exec, Gather.move]
    rw [if_neg (by simp [hend]), if_pos (by
      refine List.all_eq_true.2 fun i hi => ?_
      rw [f2 i (List.mem_range.1 hi)]
      rfl)]
  refine ⟨_, _, hf, fun a => ?_, rfl⟩
  cases a with
  | none => simp [Gather.move]
  | some i =>
    simp only [Gather.move]
    split
    · next hi => rw [f2 i hi]
    · rfl

/-- **C174** For each merge of the streams' packets there is a schedule in which the recorder writes the file of these packets
in this order. -/
theorem c174_files (ec : Encoder E) (hdr : M → List U8 × M) (pkt : M → Packet → List U8 × M) (trl : M → List U8 × M) (m : M)
    (N : Nat) (em : Nat → Machine S Frame Packet) (fine : Nat → Frame → Prop)
    (I : Nat → E → S → List Packet → Prop) (s0 : Nat → S)
    (hE : ∀ i < N, Encodes ec (em i) (fine i) (I i))
    (e0 : Nat → E) (he0 : ∀ i < N, I i (e0 i) (s0 i) [])
    (fs : Nat → List Frame) (hfs : ∀ i < N, ∀ f ∈ fs i, fine i f)
    (sink : Sink) (h0 : sink.data = [] ∧ sink.pos = 0)
    (hq : ∀ c, (sink.script c).fail = none ∧ 0 < (sink.script c).len)
    (room : Nat) (hroom : 0 < room) (k : Nat) (hk : ∀ i < N, ((em i).all (s0 i) (fs i)).length < k)
    (ps : List (Nat × Packet)) (hps : Merges N (fun i => ((em i).all (s0 i) (fs i)).map (tag i)) ps)
    (fuel : Nat) (hfuel : (Mux.fileBytes hdr pkt trl m (ps.map (·.2))).length < fuel)
    (st : Nat → Encoding E) (hstart : ∀ i < N, st i = .next (fs i) ⟨e0 i⟩) :
    ∃ cm, (Mux.Context.new m (Mux.Writer.new sink)).writeHeader (Mux.bytesMuxer fuel hdr pkt trl) = .ok (.ok (), cm) ∧
    ∃ as s c, (recorder ec Mux.sinkOps (Mux.bytesMuxer fuel hdr pkt trl) k N room).exec as
        (.start st (.ok (.ok (), cm))) = some s ∧
      (∀ a, (recorder ec Mux.sinkOps (Mux.bytesMuxer fuel hdr pkt trl) k N room).move s a = none) ∧
      s.c = .ok (.ok (), c) ∧ c.intoWriter.writer.data = Mux.fileBytes hdr pkt trl m (ps.map (·.2)) := by
  have hGex : ∀ i, ∃ ne : Nat × E, i < N →
      (recorder ec Mux.sinkOps (Mux.bytesMuxer fuel hdr pkt trl) k N room).Gives i ne.1 (st i)
        (((em i).all (s0 i) (fs i)).map (tag i)) (.ok (.ok (), ⟨ne.2⟩)) := by
    intro i
    by_cases hi : i < N
    · obtain ⟨n, e, hg⟩ := gives_all (so := Mux.sinkOps) (mx := Mux.bytesMuxer fuel hdr pkt trl) (k := k)
        (N := N) (cap := room) (hE i hi) i (fs i) (s0 i) (e0 i) (he0 i hi) (hfs i hi) (hk i hi)
      exact ⟨(n, e), fun _ => by rw [hstart i hi]; exact hg⟩
    · exact ⟨(0, e0 i), fun h' => absurd h' hi⟩
  obtain ⟨ne, hG⟩ := Classical.axiomOfChoice hGex
  obtain ⟨c, hm, hbytes, _⟩ := Mux.c39_file fuel hdr pkt trl m sink h0 hq (ps.map (·.2)) hfuel
  simp only [List.cons_append, Mux.Context.run, Mux.Context.step] at hm
  cases hh : (Mux.Context.new m (Mux.Writer.new sink)).writeHeader (Mux.bytesMuxer fuel hdr pkt trl) with
  | error er => rw [hh] at hm; cases hm
  | ok r =>
    obtain ⟨y, cm⟩ := r
    simp only [hh, ok_bind] at hm
    cases hr1 : cm.run Mux.sinkOps (Mux.bytesMuxer fuel hdr pkt trl) ((ps.map (·.2)).map .packet ++ [.trailer]) with
    | error er => rw [hr1] at hm; cases hm
    | ok r =>
      obtain ⟨ys, c'⟩ := r
      simp only [hr1, ok_bind, pure_eq_ok, List.replicate_succ, Except.ok.injEq, Prod.mk.injEq, List.cons.injEq] at hm
      obtain ⟨⟨hy, hys⟩, rfl⟩ := hm
      subst hy
      rw [hys, ← List.replicate_succ, List.replicate_succ'] at hr1
      refine ⟨cm, rfl, ?_⟩
      obtain ⟨as, s, a1, a2, a3⟩ := c174_every (recorder ec Mux.sinkOps (Mux.bytesMuxer fuel hdr pkt trl) k N room) hroom
        (.ok (.ok (), cm)) hG ps hps (by
          rintro qs ⟨l, hl⟩
          have hr := hr1
          rw [← hl, List.map_append, List.map_append, List.append_assoc, List.length_append,
            ← List.replicate_append_replicate, List.append_assoc] at hr
          obtain ⟨cm', w1, _⟩ := written (ec := ec) (k := k) (N := N) (cap := room) _ cm _ _ _ hr
          rw [w1]
          rfl)
      obtain ⟨cm', w1, w2⟩ := written (ec := ec) (k := k) (N := N) (cap := room) _ cm _ _ _ hr1
      refine ⟨as, s, c', a1, a2, ?_, hbytes⟩
      rw [a3, w1]
      simp only [Mux.Context.run, Mux.Context.step] at w2
      simp only [recorder]
      cases ht : cm'.writeTrailer Mux.sinkOps (Mux.bytesMuxer fuel hdr pkt trl) with
      | error er => rw [ht] at w2; cases w2
      | ok r =>
        obtain ⟨x, cm3⟩ := r
        rw [ht] at w2
        cases w2
        rfl

/-- A merge of the example that neither of the two schedules of C174's example gives, and its file, other than theirs. -/
def twoMixed : List (Nat × Packet) :=
  match twoOuts 0, twoOuts 1 with
  | p :: ps, q :: qs => (0, p) :: (1, q) :: (ps.map fun p => (0, p)) ++ qs.map fun q => (1, q)
  | _, _ => []

example : Merges 2 (fun i => ((whichE i).all none (only i twoFrames)).map (tag i)) twoMixed ∧
    Mux.fileBytes avHdr twoPkt avTrl 0 (twoMixed.map (·.2)) = [65, 86, 1, 0, 9, 2, 1, 8, 8, 1, 0, 7, 1, 0, 5, 1, 1, 6, 0] := by
  refine ⟨⟨by decide +kernel, ?_⟩, by decide +kernel⟩
  intro i hi
  match i with
  | 0 => decide +kernel
  | 1 => decide +kernel
  | i + 2 => omega

end Verif.RoundTrip
