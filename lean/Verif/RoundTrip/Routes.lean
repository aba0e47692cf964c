import Verif.RoundTrip.Relay
import Verif.RoundTrip.Schedules

/-!
# C176: every order of the packets is written in some schedule, if the channels are large enough

As for C174 (`RoundTrip/Schedules`): nothing more can be said of the order in which the last thread gets the items of the
workers than that those of each worker are in order. The channels to the workers have to hold what the first thread sends:
it cannot send anything to a worker while it waits for room in the channel of another.
-/

namespace Verif.RoundTrip
open Verif Verif.Io Verif.Frame Verif.Stream Verif.Packet Verif.Demux Verif.Codec

variable {M W D R E C S T X A B V U : Type}

theorem upd_upd (s : Nat → X) (i : Nat) (a b : X) : upd (upd s i a) i b = upd s i b := by
  funext j
  simp only [upd]
  split <;> rfl

theorem upd_at (s : Nat → X) (i : Nat) (a : X) : upd s i a i = a := by simp [upd]

theorem relay_exec_append (r : Relay X C A B V U W) (as bs : List (Option (Option Nat))) : ∀ (s s1 : Relayed X C A B W),
    r.exec as s = some s1 → r.exec (as ++ bs) s = r.exec bs s1 := by
  induction as with
  | nil => intro s s1 h; cases h; rfl
  | cons a as ih =>
    intro s s1 h
    simp only [Relay.exec, List.cons_append] at h ⊢
    cases hm : r.move s a with
    | none => rw [hm] at h; cases h
    | some s2 => rw [hm] at h; exact ih s2 s1 h

/-- The first thread fills the channels and ends, before any other thread moves. -/
theorem relay_fill {r : Relay X C A B V U W} (c : Nat → C) (out : Nat → List B) (w : W) {n : Nat} {x : X} {ps : List (Nat × A)} {v : V}
    (hP : r.net.Produces n x ps v) : ∀ (chan : Nat → List A),
    (∀ i < r.net.N, (chan i).length + (only i ps).length ≤ r.net.cap i) →
    ∃ as x' chan', r.exec as ⟨⟨x, chan, c, out⟩, [], w, false⟩ = some ⟨⟨x', chan', c, out⟩, [], w, false⟩ ∧
      r.net.source x' = .stop v ∧ ∀ i < r.net.N, chan' i = chan i ++ only i ps ∨ ∃ u, r.net.sink i (c i) = .stop u := by
  induction hP with
  | @stop x v h => exact fun chan _ => ⟨[], x, chan, rfl, h, fun i _ => .inl (by simp [only])⟩
  | @idle n x y ps v h _ ih =>
    intro chan hc
    obtain ⟨as, x', chan', e1, e2, e3⟩ := ih chan hc
    refine ⟨some none :: as, x', chan', ?_, e2, e3⟩
    simp only [Relay.exec, Relay.move, Net.offer, Net.move, h, Option.map_some, e1]
  | @put n x i a y ps v h hi _ ih =>
    intro chan hc
    have hci := hc i hi
    rw [only_cons_same, List.length_cons] at hci
    cases hk : r.net.sink i (c i) with
    | stop u =>
      obtain ⟨as, x', chan', e1, e2, e3⟩ := ih chan (by
        intro j hj
        have := hc j hj
        by_cases hij : i = j
        · subst hij; omega
        · rwa [only_cons_other hij] at this)
      refine ⟨some none :: as, x', chan', ?_, e2, fun j hj => ?_⟩
      · simp only [Relay.exec, Relay.move, Net.offer, Net.move, h, hk, Option.map_some, e1]
      · by_cases hij : i = j
        · subst hij; exact .inr ⟨u, hk⟩
        · rw [only_cons_other hij]; exact e3 j hj
    | _ =>
      obtain ⟨as, x', chan', e1, e2, e3⟩ := ih (upd chan i (chan i ++ [a])) (by
        intro j hj
        have := hc j hj
        simp only [upd]
        split
        · next e => subst e; simp only [List.length_append, List.length_singleton]; omega
        · next e => rwa [only_cons_other (fun h => e h.symm)] at this)
      refine ⟨some none :: as, x', chan', ?_, e2, fun j hj => ?_⟩
      · simp only [Relay.exec, Relay.move, Net.offer, Net.move, h, hk]
        rw [if_pos (by omega)]
        exact e1
      · rcases e3 j hj with e | e
        · refine .inl ?_
          rw [e]
          simp only [upd]
          split
          · next e => subst e; rw [only_cons_same, List.append_assoc]; rfl
          · next e => rw [only_cons_other (fun h => e h.symm)]
        · exact .inr e

section
variable {r : Relay X C A B V U W} {x : X} {v : V}

/-- The worker moves until it has its next item in the channel to the last thread. -/
theorem relay_send (hsrc : r.net.source x = .stop v) (hroom : 0 < r.room) {i m : Nat} {y : C} {l : List A} {o0 : List B} {u : U}
    (hi : i < r.net.N) (hc : r.net.Consumes i m y l o0 u) : ∀ (b : B) (o : List B), o0 = b :: o →
    ∀ (chan : Nat → List A) (c : Nat → C) (out : Nat → List B) (w : W), c i = y → chan i = l → r.ends w = false →
    ∃ as m' y' l', r.exec as ⟨⟨x, chan, c, out⟩, [], w, false⟩ =
        some ⟨⟨x, upd chan i l', upd c i y', upd out i (out i ++ [b])⟩, [b], w, false⟩ ∧
      r.net.Consumes i m' y' l' o u := by
  induction hc with
  | stop _ => intro b o e; cases e
  | @idle m y y1 l o1 u h0 _ ih =>
    intro b o e chan c out w hy hl hw
    obtain ⟨as, m', y', l', e1, e2⟩ := ih b o e chan (upd c i y1) out w (upd_at c i y1) hl hw
    refine ⟨some (some i) :: as, m', y', l', ?_, e2⟩
    rw [upd_upd] at e1
    simp only [Relay.exec, Relay.move, Net.offer, Net.move, if_pos hi, hy, h0, Option.map_some, e1]
  | @give m y b1 y1 l o1 u h0 hc ih =>
    intro b o e chan c out w hy hl hw
    cases e
    refine ⟨[some (some i)], m, y1, l, ?_, hc⟩
    simp only [Relay.exec, Relay.move, Net.offer, Net.move, if_pos hi, hy, h0]
    rw [if_neg (by simp [hw]), if_pos (by simpa using hroom), ← hl, upd_same]
    rfl
  | @take m y k a l o1 u h0 _ ih =>
    intro b o e chan c out w hy hl hw
    obtain ⟨as, m', y', l', e1, e2⟩ := ih b o e (upd chan i l) (upd c i (k (some a))) out w (upd_at c i _) (upd_at chan i l) hw
    refine ⟨some (some i) :: as, m', y', l', ?_, e2⟩
    rw [upd_upd, upd_upd] at e1
    simp only [Relay.exec, Relay.move, Net.offer, Net.move, if_pos hi, hy, h0, hl, Option.map_some, e1]
  | @last m y k o1 u h0 _ ih =>
    intro b o e chan c out w hy hl hw
    obtain ⟨as, m', y', l', e1, e2⟩ := ih b o e chan (upd c i (k none)) out w (upd_at c i _) hl hw
    refine ⟨some (some i) :: as, m', y', l', ?_, e2⟩
    rw [upd_upd] at e1
    simp only [Relay.exec, Relay.move, Net.offer, Net.move, if_pos hi, hy, h0, hl, hsrc, Option.map_some, e1]

/-- The worker has given out everything and ends. -/
theorem relay_stop (hsrc : r.net.source x = .stop v) {i m : Nat} {y : C} {l : List A} {o0 : List B} {u : U}
    (hi : i < r.net.N) (hc : r.net.Consumes i m y l o0 u) : o0 = [] →
    ∀ (chan : Nat → List A) (c : Nat → C) (out : Nat → List B) (w : W), c i = y → chan i = l →
    ∃ as y' l', r.exec as ⟨⟨x, chan, c, out⟩, [], w, false⟩ =
        some ⟨⟨x, upd chan i l', upd c i y', out⟩, [], w, false⟩ ∧ r.net.sink i y' = .stop u := by
  induction hc with
  | @stop y l u h0 =>
    intro _ chan c out w hy hl
    exact ⟨[], y, l, by rw [← hy, ← hl, upd_same, upd_same]; rfl, h0⟩
  | @idle m y y1 l o1 u h0 _ ih =>
    intro e chan c out w hy hl
    obtain ⟨as, y', l', e1, e2⟩ := ih e chan (upd c i y1) out w (upd_at c i y1) hl
    refine ⟨some (some i) :: as, y', l', ?_, e2⟩
    rw [upd_upd] at e1
    simp only [Relay.exec, Relay.move, Net.offer, Net.move, if_pos hi, hy, h0, Option.map_some, e1]
  | give _ _ _ => intro e; cases e
  | @take m y k a l o1 u h0 _ ih =>
    intro e chan c out w hy hl
    obtain ⟨as, y', l', e1, e2⟩ := ih e (upd chan i l) (upd c i (k (some a))) out w (upd_at c i _) (upd_at chan i l)
    refine ⟨some (some i) :: as, y', l', ?_, e2⟩
    rw [upd_upd, upd_upd] at e1
    simp only [Relay.exec, Relay.move, Net.offer, Net.move, if_pos hi, hy, h0, hl, Option.map_some, e1]
  | @last m y k o1 u h0 _ ih =>
    intro e chan c out w hy hl
    obtain ⟨as, y', l', e1, e2⟩ := ih e chan (upd c i (k none)) out w (upd_at c i _) hl
    refine ⟨some (some i) :: as, y', l', ?_, e2⟩
    rw [upd_upd] at e1
    simp only [Relay.exec, Relay.move, Net.offer, Net.move, if_pos hi, hy, h0, hl, hsrc, Option.map_some, e1]

/-- All workers below `j` end. -/
theorem relay_stops (hsrc : r.net.source x = .stop v) {u : Nat → U} (out : Nat → List B) (w : W) : ∀ (j : Nat), j ≤ r.net.N →
    ∀ (m : Nat → Nat) (chan : Nat → List A) (c : Nat → C), (∀ i < r.net.N, r.net.Consumes i (m i) (c i) (chan i) [] (u i)) →
    ∃ (as : List (Option (Option Nat))) (chan' : Nat → List A) (c' : Nat → C),
      r.exec as ⟨⟨x, chan, c, out⟩, [], w, false⟩ = some ⟨⟨x, chan', c', out⟩, [], w, false⟩ ∧
      (∀ i < j, r.net.sink i (c' i) = .stop (u i)) ∧ ∀ i, j ≤ i → c' i = c i ∧ chan' i = chan i := by
  intro j
  induction j with
  | zero => intro _ m chan c _; exact ⟨[], chan, c, rfl, fun i h => absurd h (Nat.not_lt_zero i), fun _ _ => ⟨rfl, rfl⟩⟩
  | succ j ih =>
    intro hj m chan c hC
    obtain ⟨as, chan1, c1, e1, e2, e3⟩ := ih (by omega) m chan c hC
    obtain ⟨bs, y, l, f1, f2⟩ := relay_stop hsrc (i := j) (by omega) (hC j (by omega)) rfl chan1 c1 out w
      (e3 j (by omega)).1 (e3 j (by omega)).2
    refine ⟨as ++ bs, upd chan1 j l, upd c1 j y, by rw [relay_exec_append r as bs _ _ e1, f1], fun i hi => ?_, fun i hi => ?_⟩
    · simp only [upd]
      split
      · next e => subst e; exact f2
      · next e => exact e2 i (by omega)
    · simp only [upd]
      rw [if_neg (by omega), if_neg (by omega)]
      exact e3 i (by omega)

/-- A merge is taken item by item. -/
theorem relay_merge (hsrc : r.net.source x = .stop v) (hroom : 0 < r.room) {u : Nat → U} (qs : List (Nat × B)) :
    ∀ (m : Nat → Nat) (chan : Nat → List A) (c : Nat → C) (outs out : Nat → List B) (w : W),
    (∀ i < r.net.N, r.net.Consumes i (m i) (c i) (chan i) (outs i) (u i)) → Merges r.net.N outs qs →
    (∀ ps, ps <+: qs → r.ends ((ps.map (·.2)).foldl r.take w) = false) →
    ∃ (as : List (Option (Option Nat))) (m' : Nat → Nat) (chan' : Nat → List A) (c' : Nat → C) (out' : Nat → List B),
      r.exec as ⟨⟨x, chan, c, out⟩, [], w, false⟩ = some ⟨⟨x, chan', c', out'⟩, [], (qs.map (·.2)).foldl r.take w, false⟩ ∧
      ∀ i < r.net.N, r.net.Consumes i (m' i) (c' i) (chan' i) [] (u i) := by
  induction qs with
  | nil =>
    intro m chan c outs out w hC hq _
    refine ⟨[], m, chan, c, out, rfl, fun i hi => ?_⟩
    have := hC i hi
    rwa [← hq.2 i hi] at this
  | cons q qs ih =>
    obtain ⟨i, b⟩ := q
    intro m chan c outs out w hC hq hlive
    have hi : i < r.net.N := hq.1 (i, b) (by simp)
    have ho := hq.2 i hi
    rw [only_cons_same] at ho
    have hw := hlive [] List.nil_prefix
    obtain ⟨as, m1, y1, l1, e1, e2⟩ := relay_send hsrc hroom hi (hC i hi) b (only i qs) ho.symm chan c out w rfl rfl hw
    have hm : Merges r.net.N (upd outs i (only i qs)) qs := by
      refine ⟨fun y hy => hq.1 y (by simp [hy]), fun j hj => ?_⟩
      simp only [upd]
      split
      · next e => rw [e]
      · next e => rw [← hq.2 j hj, only_cons_other (fun h => e h.symm)]
    obtain ⟨bs, m2, chan2, c2, out2, f1, f2⟩ := ih (upd m i m1) (upd chan i l1) (upd c i y1) _ (upd out i (out i ++ [b]))
      (r.take w b) (by
        intro j hj
        simp only [upd]
        by_cases hij : j = i
        · subst hij; simp only [if_true]; exact e2
        · simp only [if_neg hij]; exact hC j hj) hm (by
        rintro ps ⟨l, hl⟩
        exact hlive ((i, b) :: ps) ⟨l, by rw [← hl]; rfl⟩)
    refine ⟨as ++ (none :: bs), m2, chan2, c2, out2, ?_, f2⟩
    rw [relay_exec_append r as _ _ _ e1]
    simp only [Relay.exec, Relay.move]
    rw [if_neg (by simp only [List.map_nil, List.foldl_nil] at hw; simp [hw])]
    exact f1

end

/-- **C176** If the channels to the workers hold what is sent to them, each merge of what the workers give out is what the
last thread gets in some schedule, if it does not end before: there is an execution that has come to its end and in which
it has taken the items in this order. -/
theorem c176_every (r : Relay X C A B V U W) (hroom : 0 < r.room) {n : Nat}
    {m : Nat → Nat} {x : X} {c : Nat → C} {ps : List (Nat × A)} {outs : Nat → List B} {v : V} {u : Nat → U}
    (hP : r.net.Produces n x ps v) (hcap : ∀ i < r.net.N, (only i ps).length ≤ r.net.cap i)
    (hC : ∀ i < r.net.N, r.net.Consumes i (m i) (c i) (only i ps) (outs i) (u i)) (w0 : W)
    (qs : List (Nat × B)) (hq : Merges r.net.N outs qs)
    (hlive : ∀ ps, ps <+: qs → r.ends ((ps.map (·.2)).foldl r.take w0) = false) :
    ∃ as s, r.exec as (.start x c w0) = some s ∧ (∀ a, r.move s a = none) ∧
      s.w = r.finish ((qs.map (·.2)).foldl r.take w0) := by
  obtain ⟨as, x1, chan1, a1, a2, a3⟩ := relay_fill (r := r) c (fun _ => []) w0 hP (fun _ => []) (by
    intro i hi
    have := hcap i hi
    simpa using this)
  have hC1 : ∀ i < r.net.N, r.net.Consumes i (m i) (c i) (chan1 i) (outs i) (u i) := by
    intro i hi
    have h := hC i hi
    rcases a3 i hi with e | ⟨u', e⟩
    · rwa [e, List.nil_append]
    · generalize m i = mi at h ⊢
      generalize outs i = oi at h ⊢
      generalize only i ps = li at h
      cases h with
      | stop h0 => exact .stop h0
      | idle h0 _ => rw [h0] at e; cases e
      | give h0 _ => rw [h0] at e; cases e
      | take h0 _ => rw [h0] at e; cases e
      | last h0 _ => rw [h0] at e; cases e
  obtain ⟨bs, m2, chan2, c2, out2, b1, b2⟩ := relay_merge a2 hroom qs m chan1 c outs (fun _ => []) w0 hC1 hq hlive
  obtain ⟨cs, chan3, c3, d1, d2, _⟩ := relay_stops a2 (u := u) out2 ((qs.map (·.2)).foldl r.take w0) r.net.N (Nat.le_refl _)
    m2 chan2 c2 b2
  have h1 : r.exec (as ++ (bs ++ cs)) (.start x c w0) =
      some ⟨⟨x1, chan3, c3, out2⟩, [], (qs.map (·.2)).foldl r.take w0, false⟩ := by
    rw [relay_exec_append r as _ (.start x c w0) _ a1, relay_exec_append r bs _ _ _ b1, d1]
  have hf : r.exec ((as ++ (bs ++ cs)) ++ [none]) (.start x c w0) =
      some ⟨⟨x1, chan3, c3, out2⟩, [], r.finish ((qs.map (·.2)).foldl r.take w0), true⟩ := by
    rw [relay_exec_append r _ [none] (.start x c w0) _ h1]
    have hend := hlive qs (List.prefix_refl _)
    simp only [Relay.exec, Relay.move]
    rw [if_neg (by simp [hend]), if_pos (by
      refine List.all_eq_true.2 fun i hi => ?_
      rw [d2 i (List.mem_range.1 hi)])]
  refine ⟨_, _, hf, fun a => ?_, rfl⟩
  cases a with
  | none => simp [Relay.move]
  | some a =>
    cases a with
    | none => simp [Relay.move, Net.offer, Net.move, a2]
    | some i =>
      by_cases hi : i < r.net.N
      · simp [Relay.move, Net.offer, Net.move, hi, d2 i hi]
      · simp only [Relay.move]
        split <;> simp [Net.move, hi]

/-- **C176** With file, decoders and encoders as in `c176_transcoding`, and channels that hold the packets of their stream: for
each merge of the streams' new packets there is a schedule in which the transcoder writes the file of these packets in this
order. -/
theorem c176_files (F : Format D) (hF : F.Framed) (file : List U8) (cap : Nat) (acts : Nat → Act)
    (ha : ∀ c, (acts c).fail = none) (d d' : D) (hl : Nat) (info : GlobalInfo)
    (hh : F.head d ⟨none, none, []⟩ file = some (hl, d', info)) (evs : List Event) (he : .Eof ∉ evs)
    (hv : F.events (evs.length + 1) d' info.streams (file.drop hl) = evs ++ [.Eof])
    (dc : Decoder C) (dreg : Codecs C) (dm : Nat → Machine T Packet Frame) (J : Nat → C → T → List Frame → Prop) (t0 : Nat → T)
    (hD : ∀ i < info.streams.length, DecodesAll dc (dm i) (J i))
    (hst : ∀ (j : Nat) (st : Stream), info.streams[j]? = some st → ∃ cname dd x d1 d2,
        st.params.codec_id = some cname ∧ dreg.byName cname = .ok (some dd) ∧ st.params.extradata = some x ∧
        dc.setExtradata dd.create x = .ok d1 ∧ dc.configure d1 = .ok (.ok (), d2) ∧ J j d2 (t0 j) [])
    (ec : Encoder E) (em : Nat → Machine S Frame Packet) (fine : Nat → Frame → Prop) (I : Nat → E → S → List Packet → Prop)
    (s0 : Nat → S) (e0 : Nat → E) (hE : ∀ i < info.streams.length, Encodes ec (em i) (fine i) (I i))
    (he0 : ∀ i < info.streams.length, I i (e0 i) (s0 i) [])
    (fs : Nat → List Frame) (hfs : ∀ i, fs i = (dm i).all (t0 i) (ofStream i (packets evs)))
    (hfine : ∀ i < info.streams.length, ∀ f ∈ fs i, fine i f)
    (hdr : M → List U8 × M) (pkt : M → Packet → List U8 × M) (trl : M → List U8 × M) (m : M)
    (sink : Sink) (h0 : sink.data = [] ∧ sink.pos = 0)
    (hq : ∀ c, (sink.script c).fail = none ∧ 0 < (sink.script c).len) (fuel : Nat) (hf : file.length + 2 ≤ fuel)
    (k : Nat) (hk : ∀ i < info.streams.length, (fs i).length < k ∧ ((em i).all (s0 i) (fs i)).length < k)
    (ps : List (Nat × Packet)) (hps : Merges info.streams.length (fun i => ((em i).all (s0 i) (fs i)).map (tag i)) ps)
    (fuel' : Nat) (hfuel : (Mux.fileBytes hdr pkt trl m (ps.map (·.2))).length < fuel')
    (caps : Nat → Nat) (hcaps : ∀ i < info.streams.length, (ofStream i (packets evs)).length ≤ caps i)
    (room : Nat) (hroom : 0 < room) :
    ∃ c1 cds cm,
      readHeaders F.demuxer accBuffered fuel (Context.new d (Acc.withCapacity cap ⟨file, 0, acts, 0⟩)) = .ok (.ok (), c1) ∧
      openDecoders dc dreg c1.info.streams = .ok (.ok cds) ∧ cds.length = info.streams.length ∧
      (Mux.Context.new m (Mux.Writer.new sink)).writeHeader (Mux.bytesMuxer fuel' hdr pkt trl) = .ok (.ok (), cm) ∧
    ∀ st : Nat → Working C E, (∀ i cd, cds[i]? = some cd → st i = .wait cd ⟨e0 i⟩) →
    ∃ as s c, (transcoder dc F.demuxer accBuffered fuel ec Mux.sinkOps (Mux.bytesMuxer fuel' hdr pkt trl) k
        info.streams.length caps room).exec as (.start (.read c1) st (.ok (.ok (), cm))) = some s ∧
      (∀ a, (transcoder dc F.demuxer accBuffered fuel ec Mux.sinkOps (Mux.bytesMuxer fuel' hdr pkt trl) k
          info.streams.length caps room).move s a = none) ∧
      s.w = .ok (.ok (), c) ∧ c.intoWriter.writer.data = Mux.fileBytes hdr pkt trl m (ps.map (·.2)) := by
  obtain ⟨c1, c2, a1, a2, a3⟩ := headers_events F hF file cap acts ha d d' hl info hh fuel hf (evs.length + 1)
  rw [hv, List.map_append] at a3
  obtain ⟨cds, o1, o2, o3⟩ := openDecoders_run (dc := dc) (reg := dreg) (fun j e => J j e (t0 j) []) info.streams 0 (by
    intro j st hj
    rw [Nat.zero_add]
    exact hst j st hj)
  simp only [Nat.zero_add] at o3
  obtain ⟨c, hm, hbytes, _⟩ := Mux.c39_file fuel' hdr pkt trl m sink h0 hq (ps.map (·.2)) hfuel
  simp only [List.cons_append, Mux.Context.run, Mux.Context.step] at hm
  cases hhd : (Mux.Context.new m (Mux.Writer.new sink)).writeHeader (Mux.bytesMuxer fuel' hdr pkt trl) with
  | error er => rw [hhd] at hm; cases hm
  | ok r =>
    obtain ⟨y, cm⟩ := r
    simp only [hhd, ok_bind] at hm
    cases hr1 : cm.run Mux.sinkOps (Mux.bytesMuxer fuel' hdr pkt trl) ((ps.map (·.2)).map .packet ++ [.trailer]) with
    | error er => rw [hr1] at hm; cases hm
    | ok r =>
      obtain ⟨ys, c'⟩ := r
      simp only [hr1, ok_bind, pure_eq_ok, List.replicate_succ, Except.ok.injEq, Prod.mk.injEq, List.cons.injEq] at hm
      obtain ⟨⟨hy, hys⟩, rfl⟩ := hm
      subst hy
      rw [hys, ← List.replicate_succ, List.replicate_succ'] at hr1
      refine ⟨c1, cds, cm, a1, by rw [a2]; exact o1, o2, rfl, fun st hstart => ?_⟩
      obtain ⟨n, hP⟩ := produces_events (dc := dc) (dmx := F.demuxer) (bf := accBuffered) (fuel := fuel) (ec := ec)
        (so := Mux.sinkOps) (mx := Mux.bytesMuxer fuel' hdr pkt trl) (k := k) (N := info.streams.length) (cap := caps)
        (room := room) evs he c1 c2 a3
      have hCex : ∀ i, ∃ mu : Nat × Rust (Except AppErr Unit × DecContext C × EncContext E), i < info.streams.length →
          (transcoder dc F.demuxer accBuffered fuel ec Mux.sinkOps (Mux.bytesMuxer fuel' hdr pkt trl) k
            info.streams.length caps room).net.Consumes i mu.1 (st i) (only i (routed info.streams.length (packets evs)))
            (((em i).all (s0 i) (fs i)).map (tag i)) mu.2 := by
        intro i
        by_cases hi : i < info.streams.length
        · obtain ⟨dd, g1, g2⟩ := o3 i hi
          obtain ⟨hk1, hk2⟩ := hk i hi
          have hfi := hfine i hi
          rw [hfs i] at hk1 hk2 hfi ⊢
          obtain ⟨m', cd', ce', hm⟩ := consumes_all (dmx := F.demuxer) (bf := accBuffered) (fuel := fuel) (so := Mux.sinkOps)
            (mx := Mux.bytesMuxer fuel' hdr pkt trl) (k := k) (N := info.streams.length) (cap := caps) (room := room)
            (hD i hi) (hE i hi) i (ofStream i (packets evs)) dd (t0 i) (e0 i) (s0 i) hk1 hk2 hfi g2 (he0 i hi)
          refine ⟨(m', .ok (.ok (), cd', ce')), fun _ => ?_⟩
          rw [only_routed hi, hstart i _ g1]
          exact hm
        · exact ⟨(0, .error .fuel), fun h' => absurd h' hi⟩
      obtain ⟨mu, hC⟩ := Classical.axiomOfChoice hCex
      obtain ⟨as, s, b1, b2, b3⟩ := c176_every (transcoder dc F.demuxer accBuffered fuel ec Mux.sinkOps
        (Mux.bytesMuxer fuel' hdr pkt trl) k info.streams.length caps room) hroom (m := fun i => (mu i).1)
        (u := fun i => (mu i).2) hP (fun i hi => by rw [only_routed (show i < info.streams.length from hi)]; exact hcaps i hi) hC (.ok (.ok (), cm)) ps hps (by
          rintro qs ⟨l, hl⟩
          have hr := hr1
          rw [← hl, List.map_append, List.map_append, List.append_assoc, List.length_append,
            ← List.replicate_append_replicate, List.append_assoc] at hr
          obtain ⟨cm', w1, _⟩ := written (ec := ec) (k := k) (N := info.streams.length) (cap := room) _ cm _ _ _ hr
          simp only [transcoder]
          rw [w1]
          rfl)
      obtain ⟨cm', w1, w2⟩ := written (ec := ec) (k := k) (N := info.streams.length) (cap := room) _ cm _ _ _ hr1
      refine ⟨as, s, c', b1, b2, ?_, hbytes⟩
      rw [b3]
      simp only [transcoder]
      rw [w1]
      simp only [Mux.Context.run, Mux.Context.step] at w2
      simp only [recorder]
      cases ht : cm'.writeTrailer Mux.sinkOps (Mux.bytesMuxer fuel' hdr pkt trl) with
      | error er => rw [ht] at w2; cases w2
      | ok r =>
        obtain ⟨x, cm3⟩ := r
        rw [ht] at w2
        cases w2
        rfl

/-- A merge of the packets of C176's example that neither of its two schedules gives. -/
def twoWoven : List (Nat × Packet) :=
  match ((whichE 1).all none (twoFilms 0)).map (tag 0), ((whichE 0).all none (twoFilms 1)).map (tag 1) with
  | p :: ps, q :: qs => (0, p) :: (1, q) :: (ps.map fun p => (0, p)) ++ qs.map fun q => (1, q)
  | _, _ => []

/-- The further hypotheses of `c176_files`, and the file, other than those of the two schedules. -/
example : Merges twoInfo.streams.length (fun i => ((whichE (1 - i)).all none (twoFilms i)).map (tag i)) twoWoven ∧
    (∀ i < twoInfo.streams.length, (ofStream i (packets twoEvents)).length ≤ 3) ∧
    Mux.fileBytes avHdr twoPkt avTrl 0 (twoWoven.map (·.2)) =
      [65, 86, 1, 0, 7, 1, 1, 6, 1, 0, 9, 1, 0, 5, 2, 1, 8, 8, 0] := by
  refine ⟨⟨by decide +kernel, ?_⟩, by decide +kernel, by decide +kernel⟩
  intro i hi
  match i with
  | 0 => decide +kernel
  | 1 => decide +kernel
  | i + 2 => exact absurd hi (by simp [twoInfo])

/-! ### channels that are too small -/

/-- The first thread sends 0, 1 and 2 to the first worker and 9 to the second; both pass on what they get, and the last
thread collects it. The channels have room for one item. -/
def narrow : Relay Nat (Option (Option Nat)) Nat Nat Unit Unit (List Nat) where
  net := {
    N := 2
    cap := fun _ => 1
    source := fun x => if x < 3 then .put 0 x (x + 1) else if x = 3 then .put 1 9 4 else .stop ()
    sink := fun _ c => match c with
      | some none => .need fun a => a.map some
      | some (some a) => .give a (some none)
      | none => .stop () }
  room := 1
  take := fun w b => w ++ [b]
  finish := id
  ends := fun _ => false

/-- Before the first worker has given out something the first thread has sent two items at most, and nothing to the other. -/
structure Narrow (s : Relayed Nat (Option (Option Nat)) Nat Nat (List Nat)) : Prop where
  first : s.w ++ s.chan = [] → s.t.c 0 ≠ none ∧ s.done = false ∧
    s.t.x = (s.t.chan 0).length + (if s.t.c 0 = some none then 0 else 1) ∧ (s.t.chan 0).length ≤ 1 ∧
    s.t.chan 1 = [] ∧ s.t.c 1 = some none
  small : ∀ a ∈ s.t.chan 0, a < 3
  held : ∀ a, s.t.c 0 = some (some a) → a < 3
  head : ∀ a l, s.w ++ s.chan = a :: l → a < 3

theorem ite_some {p : Prop} [Decidable p] {a b : X} (h : (if p then some a else none) = some b) : p ∧ a = b := by
  split at h
  · next hp => cases h; exact ⟨hp, rfl⟩
  · cases h

theorem narrow_move {s s' : Relayed Nat (Option (Option Nat)) Nat Nat (List Nat)} (h : Narrow s) (a : Option (Option Nat))
    (e : narrow.move s a = some s') : Narrow s' := by
  obtain ⟨⟨x, chan, c, out⟩, ch, w, done⟩ := s
  obtain ⟨h1, h2, h3, h4⟩ := h
  simp only at h1 h2 h3 h4
  match a with
  | none =>
    simp only [Relay.move, narrow] at e
    cases done with
    | true => simp at e
    | false =>
      simp only [Bool.false_eq_true, or_self, if_false] at e
      cases ch with
      | cons b l =>
        cases e
        refine ⟨fun h => ?_, h2, h3, fun a l' h => ?_⟩
        · simp at h
        · exact h4 a l' (by simpa using h)
      | nil =>
        simp only at e
        obtain ⟨hall, rfl⟩ := ite_some e
        refine ⟨fun h => ?_, h2, h3, h4⟩
        exfalso
        have h0 := h1 h
        have := List.all_eq_true.1 hall 0 (by simp)
        cases hc : c 0 with
        | none => exact h0.1 hc
        | some y => cases y <;> simp [hc] at this
  | some none =>
    simp only [Relay.move, Net.offer, Net.move, narrow] at e
    by_cases hx : x < 3
    · simp only [if_pos hx] at e
      cases hc : c 0 with
      | none =>
        rw [hc] at e
        cases e
        exact ⟨fun h => absurd hc (h1 h).1, h2, h3, h4⟩
      | some y =>
        have hroom : (if (chan 0).length < 1 then some (⟨x + 1, upd chan 0 (chan 0 ++ [x]), c, out⟩ : Threads Nat (Option (Option Nat)) Nat Nat) else none).map
            (fun t => (⟨t, ch, w, done⟩ : Relayed Nat (Option (Option Nat)) Nat Nat (List Nat))) = some s' := by
          cases y <;> simpa [hc] using e
        split at hroom
        · next hlt =>
          cases hroom
          refine ⟨fun h => ?_, fun b hb => ?_, h3, h4⟩
          · obtain ⟨a1, a2, a3, a4, a5, a6⟩ := h1 h
            refine ⟨a1, a2, ?_, ?_, a5, a6⟩
            · simp only [upd_at, List.length_append, List.length_singleton] at a3 ⊢
              omega
            · simp only [upd_at, List.length_append, List.length_singleton]
              omega
          · simp only [upd_at, List.mem_append, List.mem_singleton] at hb
            rcases hb with hb | hb
            · exact h2 b hb
            · omega
        · cases hroom
    · have hne : w ++ ch = [] → False := by
        intro h
        obtain ⟨_, _, a3, a4, _⟩ := h1 h
        split at a3 <;> omega
      simp only [if_neg hx] at e
      by_cases hx3 : x = 3
      · simp only [if_pos hx3] at e
        cases hc : c 1 with
        | none => rw [hc] at e; cases e; exact ⟨fun h => (hne h).elim, h2, h3, h4⟩
        | some y =>
          have hroom : (if (chan 1).length < 1 then some (⟨4, upd chan 1 (chan 1 ++ [9]), c, out⟩ : Threads Nat (Option (Option Nat)) Nat Nat) else none).map
              (fun t => (⟨t, ch, w, done⟩ : Relayed Nat (Option (Option Nat)) Nat Nat (List Nat))) = some s' := by
            cases y <;> simpa [hc] using e
          split at hroom
          · cases hroom
            exact ⟨fun h => (hne h).elim, fun b hb => h2 b (by simpa [upd] using hb), h3, h4⟩
          · cases hroom
      · simp only [if_neg hx3] at e
        cases e
  | some (some i) =>
    simp only [Relay.move, Net.offer, Net.move] at e
    by_cases hi : i < 2
    case neg =>
      simp only [if_neg (show ¬ i < narrow.net.N from hi)] at e
      split at e
      · cases e
      · split at e
        · cases e
        · split at e <;> cases e
    simp only [if_pos (show i < narrow.net.N from hi)] at e
    simp only [narrow] at e
    cases hc : c i with
    | none => rw [hc] at e; cases e
    | some y =>
      rw [hc] at e
      cases y with
      | none =>
        simp only at e
        cases hl : chan i with
        | cons b l =>
          rw [hl] at e
          cases e
          have hi' : i = 0 ∨ i = 1 := by omega
          rcases hi' with rfl | rfl
          · refine ⟨fun h => ?_, fun b' hb' => ?_, fun a' ha' => ?_, h4⟩
            · obtain ⟨a1, a2, a3, a4, a5, a6⟩ := h1 h
              rw [hl, if_pos hc] at a3
              rw [hl] at a4
              refine ⟨by simp [upd], a2, ?_, ?_, a5, a6⟩
              · simp only [upd_at, Option.map_some]
                rw [if_neg (by simp)]
                simp only [List.length_cons] at a3
                omega
              · simp only [upd_at]
                simp only [List.length_cons] at a4
                omega
            · simp only [upd_at] at hb'
              exact h2 b' (by rw [hl]; simp [hb'])
            · simp only [upd_at, Option.map_some, Option.some.injEq] at ha'
              subst ha'
              exact h2 _ (by rw [hl]; simp)
          · refine ⟨fun h => ?_, fun b' hb' => h2 b' (by simpa [upd] using hb'), fun a' ha' => h3 a' (by simpa [upd] using ha'), h4⟩
            obtain ⟨_, _, _, _, a5, _⟩ := h1 h
            rw [hl] at a5
            cases a5
        | nil =>
          rw [hl] at e
          simp only at e
          have hx : ¬ x < 3 ∧ x ≠ 3 := by
            constructor <;> intro hx <;> simp [hx] at e
          simp only [if_neg hx.1, if_neg hx.2] at e
          cases e
          have hne : w ++ ch = [] → False := by
            intro h
            obtain ⟨_, _, a3, a4, _⟩ := h1 h
            split at a3 <;> omega
          refine ⟨fun h => (hne h).elim, h2, fun a' ha' => ?_, h4⟩
          by_cases h0 : 0 = i
          · subst h0; simp [upd] at ha'
          · exact h3 a' (by simpa [upd, h0] using ha')
      | some b =>
        simp only at e
        have hb : (w ++ ch = [] → b < 3) := by
          intro h
          have hi' : i = 0 ∨ i = 1 := by omega
          rcases hi' with rfl | rfl
          · exact h3 b hc
          · have := (h1 h).2.2.2.2.2
            rw [hc] at this
            cases this
        have h3' : ∀ a, upd c i (some none) 0 = some (some a) → a < 3 := by
          intro a' ha'
          by_cases h0 : 0 = i
          · subst h0; simp [upd] at ha'
          · exact h3 a' (by simpa [upd, h0] using ha')
        cases done with
        | true =>
          simp only [true_or, if_true, Option.map_some] at e
          cases e
          exact ⟨(fun h => nomatch (h1 h).2.1), h2, h3', h4⟩
        | false =>
          simp only [Bool.false_eq_true, or_self, if_false, Option.map_some] at e
          obtain ⟨_, rfl⟩ := ite_some e
          refine ⟨fun h => by simp at h, h2, h3', fun a l h => ?_⟩
          cases hwc : w ++ ch with
          | nil =>
            rw [← List.append_assoc, hwc] at h
            cases h
            exact hb hwc
          | cons a0 l0 =>
            rw [← List.append_assoc, hwc] at h
            cases h
            exact h4 _ _ hwc

theorem narrow_exec (as : List (Option (Option Nat))) : ∀ (s s' : Relayed Nat (Option (Option Nat)) Nat Nat (List Nat)),
    Narrow s → narrow.exec as s = some s' → Narrow s' := by
  induction as with
  | nil => intro s s' h e; cases e; exact h
  | cons a as ih =>
    intro s s' h e
    simp only [Relay.exec] at e
    cases hm : narrow.move s a with
    | none => rw [hm] at e; cases e
    | some s1 => rw [hm] at e; exact ih s1 s' (narrow_move h a hm) e

/-- **C176** Channels that do not hold what is sent to them exclude some merges: in no schedule does the last thread of
`narrow` get what the second worker gives out first. -/
theorem c176_narrow : narrow.net.Produces 4 0 [(0, 0), (0, 1), (0, 2), (1, 9)] () ∧
    (∀ i < 2, ∃ m, narrow.net.Consumes i m (some none) (only i [(0, 0), (0, 1), (0, 2), (1, 9)])
      (only i [(1, 9), (0, 0), (0, 1), (0, 2)]) ()) ∧
    ∀ as s, narrow.exec as (.start 0 (fun _ => some none) []) = some s → ∀ l, s.w ≠ 9 :: l := by
  refine ⟨.put rfl (by decide) (.put rfl (by decide) (.put rfl (by decide) (.put rfl (by decide) (.stop rfl)))), ?_, ?_⟩
  · intro i hi
    match i with
    | 0 => exact ⟨_, .take rfl (.give rfl (.take rfl (.give rfl (.take rfl (.give rfl (.last rfl (.stop rfl)))))))⟩
    | 1 => exact ⟨_, .take rfl (.give rfl (.last rfl (.stop rfl)))⟩
    | i + 2 => omega
  · intro as s e l hw
    have h := narrow_exec as _ s ⟨fun _ => ⟨by simp [Relayed.start, Threads.start], rfl, rfl, Nat.zero_le _, rfl, rfl⟩,
      by simp [Relayed.start, Threads.start], by simp [Relayed.start, Threads.start], by simp [Relayed.start]⟩ e
    have := h.head 9 (l ++ s.chan) (by rw [hw]; rfl)
    omega

/-- With room for all items there is such a schedule. -/
example : ∃ as s, ({ narrow with net := { narrow.net with cap := fun _ => 3 } } :
      Relay Nat (Option (Option Nat)) Nat Nat Unit Unit (List Nat)).exec as (.start 0 (fun _ => some none) []) = some s ∧
    s.w = [9, 0, 1, 2] := by
  obtain ⟨as, s, h1, _, h3⟩ := c176_every ({ narrow with net := { narrow.net with cap := fun _ => 3 } } :
      Relay Nat (Option (Option Nat)) Nat Nat Unit Unit (List Nat)) (by decide) (n := 4) (x := 0)
    (m := fun i => if i = 0 then 7 else 3) (c := fun _ => some none)
    (ps := [(0, 0), (0, 1), (0, 2), (1, 9)]) (outs := fun i => only i [(1, 9), (0, 0), (0, 1), (0, 2)]) (v := ()) (u := fun _ => ())
    (.put rfl (by decide) (.put rfl (by decide) (.put rfl (by decide) (.put rfl (by decide) (.stop rfl)))))
    (by decide +kernel) (by
      intro i hi
      match i with
      | 0 => exact .take rfl (.give rfl (.take rfl (.give rfl (.take rfl (.give rfl (.last rfl (.stop rfl)))))))
      | 1 => exact .take rfl (.give rfl (.last rfl (.stop rfl)))
      | i + 2 => exact absurd hi (by show ¬ i + 2 < 2; omega))
    [] [(1, 9), (0, 0), (0, 1), (0, 2)] ⟨by decide +kernel, fun _ _ => rfl⟩ (fun _ _ => rfl)
  exact ⟨as, s, h1, h3⟩

end Verif.RoundTrip
