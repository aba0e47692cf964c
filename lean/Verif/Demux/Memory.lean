import Verif.Demux.Diverge
import Verif.Acc.Offset

/-!
# C129: how large the buffer gets while demuxing

`read_event` enlarges the buffer by every request that exceeds what is buffered (demuxer.rs:149-153), also if the
buffer has room for it.
-/

namespace Verif.Demux
open Verif Verif.Io Verif.Stream Verif.Packet Verif.Data

/-- A demuxer that asks for at most `K` bytes at a time, and otherwise moves on within what it has been shown. -/
def Tame {D : Type} (K : Nat) (event : D → List U8 → Except Err (SeekFrom × Event) × D) : Prop :=
  ∀ d w, (∀ n, (event d w).1 = .error (.MoreDataNeeded n) → n ≤ K) ∧
    ∀ sk ev, (event d w).1 = .ok (sk, ev) →
      (∃ k : Nat, k ≤ w.length ∧ sk = .current k) ∧ ∀ n, ev = .MoreDataNeeded n → n ≤ K

/-- What C129 claims: with a demuxer asking for at most `K` bytes, the buffer never gets longer than its capacity and
one request. -/
def C129 {D : Type} (K : Nat) (event : D → List U8 → Except Err (SeekFrom × Event) × D) : Prop :=
  ∀ (header : D → GlobalInfo → List U8 → Except Err SeekFrom × D × GlobalInfo) (d : D) (s : Source), s.pos = 0 →
    ∀ (cap fuel m : Nat) (xs : List (Except Err Event)) (c : Context D Acc.Acc),
    readEvents (windowDemuxer header event) accBuffered fuel m (Context.new d (Acc.withCapacity cap s)) = .ok (xs, c) →
    c.reader.buf.length ≤ cap + K

/-! ### the upper bound -/

theorem seek_within {dat : List U8} {r : Acc.Acc} (h : Acc.Inv dat r) {k : Nat} (hk : k ≤ (Acc.win r).length) :
    Acc.seek r (.current k) = .ok (.ok (r.index + k), { r with index := r.index + k, pos := r.pos + k }) ∧
    Acc.Inv dat { r with index := r.index + k, pos := r.pos + k } ∧
    Acc.win { r with index := r.index + k, pos := r.pos + k } = (Acc.win r).drop k := by
  have hpe := h.pe
  have heb := h.eb
  have hip := h.ip
  have hwl := Acc.win_length h
  have hw : Acc.win { r with index := r.index + k, pos := r.pos + k } = (Acc.win r).drop k := by
    simp only [Acc.win]
    rw [List.drop_take, List.drop_drop]
    congr 1
    omega
  refine ⟨?_, ⟨h.src, by simp only; omega, heb, by simp only; omega, ?_⟩, hw⟩
  · simp only [Acc.seek, usub_ok hpe, ok_bind]
    rw [if_pos (by omega), if_pos (by omega)]
    rfl
  · rw [hw, h.win, List.drop_take, List.drop_drop]
    simp only
    congr 1
    omega

section
variable {D : Type} {header : D → GlobalInfo → List U8 → Except Err SeekFrom × D × GlobalInfo}
  {event : D → List U8 → Except Err (SeekFrom × Event) × D} {K : Nat} {dat : List U8}

/-- The buffer is paid for by what has been read from the inner reader. -/
structure Paid (K : Nat) (dat : List U8) (B : Nat) (r : Acc.Acc) : Prop where
  inv : Acc.Inv dat r
  inside : r.inner.pos ≤ dat.length
  len : r.buf.length ≤ B + K * r.inner.pos

theorem Paid.asks (ht : Tame K event) {B n : Nat} {c c' : Context D Acc.Acc} (h : Paid K dat B c.reader)
    (ha : Asks (windowDemuxer header event) accBuffered c n c') : n ≤ K ∧ Paid K dat B c'.reader := by
  cases ha with
  | error h1 =>
    rw [window_call h.inv] at h1
    simp only [Except.ok.injEq, Prod.mk.injEq] at h1
    obtain ⟨a, rfl, rfl⟩ := h1
    exact ⟨(ht _ _).1 n a, h⟩
  | event h1 h2 =>
    rw [window_call h.inv] at h1
    simp only [Except.ok.injEq, Prod.mk.injEq] at h1
    obtain ⟨a, rfl, rfl⟩ := h1
    obtain ⟨⟨k, hk, rfl⟩, b⟩ := (ht _ _).2 _ _ a
    obtain ⟨s1, s2, -⟩ := seek_within h.inv hk
    rw [show accBuffered.seek = Acc.seek from rfl, s1] at h2
    cases h2
    exact ⟨b n rfl, s2, h.inside, h.len⟩

theorem Paid.fill {B n : Nat} {r r' : Acc.Acc} {x} (h : Paid K dat B r) (hn : n ≤ K)
    (hf : (accBuffered.grow r n >>= accBuffered.fillBuf) = .ok (x, r')) :
    Paid K dat (B + K) r' ∧ (∀ w', Acc.data r' = .ok w' → (Acc.win r).length < w'.length → Paid K dat B r') := by
  obtain ⟨f1, f2, -⟩ := fill_grown h.inv (show Acc.fillBuf (Acc.grow r n) = .ok (x, r') from hf)
  have hl : r'.buf.length = r.buf.length + n := by rw [f1.len]; simp [Acc.grow]
  have hw := Acc.win_length h.inv
  have hw' := Acc.win_length f1.inv
  have hip := h.inv.ip
  have hip' := f1.inv.ip
  have hix : r'.index = r.index := f1.index
  have hlen := h.len
  have hge : (Acc.win r).length ≤ (Acc.win r').length := by
    cases x with
    | error e => rw [(f1.error e rfl).1, f2]; exact Nat.le_refl _
    | ok l =>
      obtain ⟨a, b, -⟩ := f1.shown l rfl
      rw [f2] at b
      rw [← a]; exact b.length_le
  have hmul := Nat.mul_le_mul_left K (show r.inner.pos ≤ r'.inner.pos by omega)
  have hin : r'.inner.pos ≤ dat.length := by
    have := h.inside
    rcases f1.inv.inData with a | a <;> omega
  refine ⟨⟨f1.inv, hin, by omega⟩, fun w' hd hlt => ⟨f1.inv, hin, ?_⟩⟩
  rw [Acc.data_ok f1.inv] at hd
  cases hd
  have := Nat.mul_le_mul_left K (show r.inner.pos + 1 ≤ r'.inner.pos by omega)
  rw [Nat.mul_add] at this
  omega

theorem Paid.round (ht : Tame K event) {B : Nat} {c c' : Context D Acc.Acc} (h : Paid K dat B c.reader)
    (hr : Round (windowDemuxer header event) accBuffered c c') : Paid K dat B c'.reader := by
  cases hr with
  | again h1 => exact (h.asks ht h1).2
  | more h1 h2 h3 h4 h5 h6 =>
    obtain ⟨a, b⟩ := h.asks ht h1
    refine (b.fill a h4).2 _ h5 ?_
    rw [show accBuffered.data = Acc.data from rfl, Acc.data_ok b.inv] at h2
    cases h2
    exact h6

theorem Paid.rounds (ht : Tame K event) {B : Nat} {c c' : Context D Acc.Acc} (h : Paid K dat B c.reader)
    (hr : Rounds (windowDemuxer header event) accBuffered c c') : Paid K dat B c'.reader := by
  induction hr with
  | refl => exact h
  | step hr _ ih => exact ih (h.round ht hr)

theorem Paid.more {B : Nat} {r : Acc.Acc} (h : Paid K dat B r) : Paid K dat (B + K) r :=
  ⟨h.inv, h.inside, by have := h.len; omega⟩

theorem Paid.readEvent (ht : Tame K event) {B fuel : Nat} {c c' : Context D Acc.Acc} {x} (h : Paid K dat B c.reader)
    (hr : readEvent (windowDemuxer header event) accBuffered fuel c = .ok (x, c')) : Paid K dat (B + K) c'.reader := by
  obtain ⟨c0, h1, h2⟩ := readEvent_spec fuel hr
  have h := h.rounds ht h1
  rcases h2 with h2 | h2
  · cases h2 with
    | error a =>
      rw [window_call h.inv] at a
      simp only [Except.ok.injEq, Prod.mk.injEq] at a
      obtain ⟨-, rfl, rfl⟩ := a
      exact h.more
    | seekError a b =>
      rw [window_call h.inv] at a
      simp only [Except.ok.injEq, Prod.mk.injEq] at a
      obtain ⟨a, rfl, rfl⟩ := a
      obtain ⟨⟨k, hk, rfl⟩, -⟩ := (ht _ _).2 _ _ a
      rw [show accBuffered.seek = Acc.seek from rfl, (seek_within h.inv hk).1] at b
      cases b
    | event a b =>
      rw [window_call h.inv] at a
      simp only [Except.ok.injEq, Prod.mk.injEq] at a
      obtain ⟨a, rfl, rfl⟩ := a
      obtain ⟨⟨k, hk, rfl⟩, -⟩ := (ht _ _).2 _ _ a
      obtain ⟨s1, s2, -⟩ := seek_within h.inv hk
      rw [show accBuffered.seek = Acc.seek from rfl, s1] at b
      cases b
      exact Paid.more ⟨s2, h.inside, h.len⟩
  · cases h2 with
    | readError a _ _ b =>
      obtain ⟨e, f⟩ := h.asks ht a
      exact (f.fill e b).1
    | eof a _ _ b =>
      obtain ⟨e, f⟩ := h.asks ht a
      exact (f.fill e b).1

theorem Paid.readEvents (ht : Tame K event) {fuel : Nat} (m : Nat) : ∀ {B : Nat} {c c' : Context D Acc.Acc} {xs},
    Paid K dat B c.reader → readEvents (windowDemuxer header event) accBuffered fuel m c = .ok (xs, c') →
    Paid K dat (B + K * m) c'.reader := by
  induction m with
  | zero => intro B c c' xs h hr; cases hr; exact h
  | succ m ih =>
    intro B c c' xs h hr
    simp only [Demux.readEvents] at hr
    cases h1 : Demux.readEvent (windowDemuxer header event) accBuffered fuel c with
    | error e => rw [h1] at hr; cases hr
    | ok v =>
      obtain ⟨x, c1⟩ := v
      simp only [h1, ok_bind] at hr
      cases h2 : Demux.readEvents (windowDemuxer header event) accBuffered fuel m c1 with
      | error e => rw [h2] at hr; cases hr
      | ok v =>
        obtain ⟨ys, c2⟩ := v
        rw [h2] at hr
        cases hr
        have := ih (h.readEvent ht h1) h2
        rw [Nat.mul_succ, show B + (K * m + K) = B + K + K * m by omega]
        exact this

/-- **C129**, partial: in full, the buffer never gets longer than its capacity and one request. True is: after `m` calls
of `read_event` it has at most its capacity and one request for each call and each byte of the stream. -/
theorem c129_partial (ht : Tame K event) (d : D) (s : Source) (h0 : s.pos = 0) (cap fuel m : Nat)
    (xs : List (Except Err Event)) (c : Context D Acc.Acc)
    (h : readEvents (windowDemuxer header event) accBuffered fuel m (Context.new d (Acc.withCapacity cap s)) = .ok (xs, c)) :
    c.reader.buf.length ≤ cap + K * (m + s.data.length) := by
  have hp : Paid K s.data cap (Context.new d (Acc.withCapacity cap s)).reader :=
    ⟨Acc.withCapacity_inv cap s h0, by simp [Context.new, Acc.withCapacity, h0], by simp [Context.new, Acc.withCapacity]⟩
  obtain ⟨-, h1, h2⟩ := hp.readEvents ht m h
  have := Nat.mul_le_mul_left K h1
  rw [Nat.mul_add]
  omega

end

/-! ### the buffer grows without bound -/

/-- Records of one byte. -/
def byteEvent (_ : Unit) (w : List U8) : Except Err (SeekFrom × Event) × Unit :=
  (if w.length = 0 then .error (.MoreDataNeeded 1) else .ok (.current 1, .Continue), ())

theorem byteEvent_tame : Tame 1 byteEvent := by
  intro d w
  by_cases h : w.length = 0
  · simp [byteEvent, h]
  · simp only [byteEvent, if_neg h]
    refine ⟨fun n hn => by simp at hn, fun sk ev he => ?_⟩
    simp only [Except.ok.injEq, Prod.mk.injEq] at he
    obtain ⟨rfl, rfl⟩ := he
    exact ⟨⟨1, by omega, rfl⟩, fun n hn => by cases hn⟩

/-- The demuxer that knows only records of one byte. -/
def byteDemuxer : Demuxer Unit Acc.Acc := windowDemuxer (fun d info _ => (.ok (.current 0), d, info)) byteEvent

/-- A record is buffered: it is passed over. -/
theorem byte_next {dat : List U8} (fuel : Nat) {c : Context Unit Acc.Acc} (hi : Acc.Inv dat c.reader)
    (hw : 0 < (Acc.win c.reader).length) :
    readEvent byteDemuxer accBuffered (fuel + 1) c = .ok (.ok .Continue,
      ⟨(), { c.reader with index := c.reader.index + 1, pos := c.reader.pos + 1 }, c.info, c.user_private⟩) := by
  have hcall := window_call (header := fun d info _ => (.ok (.current 0), d, info)) (event := byteEvent) hi
  have he : byteEvent c.demuxer (Acc.win c.reader) = (.ok (.current 1, .Continue), ()) := by
    simp only [byteEvent, if_neg (show ¬ (Acc.win c.reader).length = 0 by omega)]
  rw [he] at hcall
  have hs := (seek_within hi (k := 1) hw).1
  have ha : Answers byteDemuxer accBuffered c (.ok .Continue) _ := .event hcall hs .continue
  rw [readEvent_answers fuel ha]
  simp [announced]

/-- What is buffered is passed over. -/
theorem byte_drain {dat : List U8} (fuel : Nat) (k : Nat) : ∀ {c : Context Unit Acc.Acc}, Acc.Inv dat c.reader →
    (Acc.win c.reader).length = k → ∃ xs c', readEvents byteDemuxer accBuffered (fuel + 1) k c = .ok (xs, c') ∧
      Acc.Inv dat c'.reader ∧ Acc.win c'.reader = [] ∧ c'.reader.buf = c.reader.buf ∧ c'.reader.inner = c.reader.inner := by
  induction k with
  | zero => intro c hi hw; exact ⟨[], c, rfl, hi, List.length_eq_zero_iff.1 hw, rfl, rfl⟩
  | succ k ih =>
    intro c hi hw
    obtain ⟨-, s2, s3⟩ := seek_within hi (k := 1) (by omega)
    obtain ⟨xs, c', a1, a2, a3, a4, a5⟩ := ih
      (c := ⟨(), { c.reader with index := c.reader.index + 1, pos := c.reader.pos + 1 }, c.info, c.user_private⟩) s2 (by simp only [s3, List.length_drop]; omega)
    refine ⟨.ok .Continue :: xs, c', ?_, a2, a3, a4, a5⟩
    simp only [readEvents, byte_next fuel hi (by omega), ok_bind, a1, pure_eq_ok]

/-- Nothing is buffered: the buffer grows by one and is filled. -/
theorem byte_refill {dat : List U8} {c : Context Unit Acc.Acc} (hi : Acc.Inv dat c.reader)
    (hg : Acc.Generous dat c.reader.inner.script) (hw : Acc.win c.reader = [])
    (hd : c.reader.inner.pos + c.reader.buf.length + 1 ≤ dat.length) :
    ∃ c', Round byteDemuxer accBuffered c c' ∧ Acc.Inv dat c'.reader ∧
      (Acc.win c'.reader).length = c.reader.buf.length + 1 ∧ c'.reader.buf.length = c.reader.buf.length + 1 ∧
      c'.reader.inner.script = c.reader.inner.script ∧
      c'.reader.inner.pos = c.reader.inner.pos + c.reader.buf.length + 1 := by
  have hcall := window_call (header := fun d info _ => (.ok (.current 0), d, info)) (event := byteEvent) hi
  have he : byteEvent c.demuxer (Acc.win c.reader) = (.error (.MoreDataNeeded 1), ()) := by rw [hw]; rfl
  rw [he] at hcall
  have ha : Asks byteDemuxer accBuffered c 1 _ := .error hcall
  obtain ⟨g1, g2⟩ := Acc.grow_inv hi 1
  obtain ⟨x, r', f1, f2⟩ := Acc.fillBuf_spec g1
  obtain ⟨l, rfl, hl⟩ := Acc.fillBuf_generous g1 hg f1
  obtain ⟨b1, -, -⟩ := f2.shown l rfl
  have hwl := Acc.win_length hi
  have hwl' := Acc.win_length f2.inv
  have hip := hi.ip
  have hip' := f2.inv.ip
  have heb := f2.inv.eb
  have hlen := f2.len
  have hix : r'.index = c.reader.index := f2.index
  have hgl : (Acc.grow c.reader 1).buf.length = c.reader.buf.length + 1 := by simp [Acc.grow]
  have hgi : (Acc.grow c.reader 1).index = c.reader.index := rfl
  rw [hw] at hwl
  simp only [List.length_nil] at hwl
  rw [b1] at hl
  have hlw : (Acc.win r').length = c.reader.buf.length + 1 := by omega
  refine ⟨_, .more ha (Acc.data_ok hi) (by rw [hw]; decide) (show Acc.fillBuf (Acc.grow c.reader 1) = _ from f1)
    (Acc.data_ok f2.inv) (by rw [hw, hlw]; simp), f2.inv, hlw, by simp only; omega, f2.script, by simp only; omega⟩

theorem readEvents_append {D R : Type} {dm : Demuxer D R} {bf : Buffered R} {fuel a b : Nat} {c c1 c2 : Context D R}
    {xs ys} (h1 : readEvents dm bf fuel a c = .ok (xs, c1)) (h2 : readEvents dm bf fuel b c1 = .ok (ys, c2)) :
    readEvents dm bf fuel (a + b) c = .ok (xs ++ ys, c2) := by
  induction a generalizing c xs with
  | zero => cases h1; simpa using h2
  | succ a ih =>
    rw [show a + 1 + b = (a + b) + 1 by omega]
    simp only [readEvents] at h1 ⊢
    cases h : readEvent dm bf fuel c with
    | error e => rw [h] at h1; cases h1
    | ok v =>
      obtain ⟨x, c3⟩ := v
      simp only [h, ok_bind] at h1 ⊢
      cases h' : readEvents dm bf fuel a c3 with
      | error e => rw [h'] at h1; cases h1
      | ok v =>
        obtain ⟨zs, c4⟩ := v
        rw [h'] at h1
        cases h1
        rw [ih h']
        rfl

theorem byte_grows {dat : List U8} (N : Nat) : ∀ {c : Context Unit Acc.Acc}, Acc.Inv dat c.reader →
    Acc.Generous dat c.reader.inner.script → Acc.win c.reader = [] →
    c.reader.inner.pos + N * (c.reader.buf.length + N) ≤ dat.length →
    ∃ m xs c', readEvents byteDemuxer accBuffered 2 m c = .ok (xs, c') ∧
      c'.reader.buf.length = c.reader.buf.length + N := by
  induction N with
  | zero => intro c _ _ _ _; exact ⟨0, [], c, rfl, rfl⟩
  | succ N ih =>
    intro c hi hg hw hd
    have hexp : (N + 1) * (c.reader.buf.length + (N + 1)) =
        N * (c.reader.buf.length + 1 + N) + (c.reader.buf.length + 1 + N) := by
      rw [Nat.add_mul, Nat.one_mul, show c.reader.buf.length + (N + 1) = c.reader.buf.length + 1 + N by omega]
    obtain ⟨c1, a1, a2, a3, a4, a5, a6⟩ := byte_refill hi hg hw (by omega)
    have b1 := byte_next 0 a2 (by omega)
    obtain ⟨-, s2, s3⟩ := seek_within a2 (k := 1) (by omega)
    obtain ⟨xs, c2, d1, d2, d3, d4, d5⟩ := byte_drain 1 (c.reader.buf.length)
      (c := ⟨(), { c1.reader with index := c1.reader.index + 1, pos := c1.reader.pos + 1 }, c1.info, c1.user_private⟩) s2
      (by simp only [s3, List.length_drop]; omega)
    simp only at d4 d5
    have hfirst : readEvents byteDemuxer accBuffered 2 (c.reader.buf.length + 1) c = .ok (.ok .Continue :: xs, c2) := by
      simp only [readEvents, readEvent_round 1 a1, b1, ok_bind, d1, pure_eq_ok]
    obtain ⟨m, ys, c3, e1, e2⟩ := ih d2 (by rw [d5, a5]; exact hg) d3 (by rw [d4, d5, a4, a6]; omega)
    exact ⟨_, _, c3, readEvents_append hfirst e1, by rw [e2, d4, a4]; omega⟩

/-- A stream of `n` zeros, delivered as asked for. -/
def zeros (n : Nat) : Source := ⟨List.replicate n 0, 0, fun _ => ⟨none, n⟩, 0⟩

/-- C129 fails, for records of one byte and a reader that always delivers what is asked for: the buffer gets longer
than any number. -/
theorem c129_fails (cap N : Nat) : Tame 1 byteEvent ∧
    (∃ m xs c, readEvents byteDemuxer accBuffered 2 m (Context.new () (Acc.withCapacity cap (zeros (N * (cap + N))))) =
      .ok (xs, c) ∧ c.reader.buf.length = cap + N) ∧ ¬ C129 1 byteEvent := by
  have key : ∀ N, ∃ m xs c, readEvents byteDemuxer accBuffered 2 m
      (Context.new () (Acc.withCapacity cap (zeros (N * (cap + N))))) = .ok (xs, c) ∧ c.reader.buf.length = cap + N := by
    intro N
    have hi : Acc.Inv (zeros (N * (cap + N))).data
      (Context.new () (Acc.withCapacity cap (zeros (N * (cap + N))))).reader := Acc.withCapacity_inv cap _ rfl
    obtain ⟨m, xs, c, h1, h2⟩ := byte_grows N hi
      (by intro k; simp [Context.new, Acc.withCapacity, zeros]) (by simp [Context.new, Acc.withCapacity, Acc.win])
      (by simp [Context.new, Acc.withCapacity, zeros])
    exact ⟨m, xs, c, h1, by rw [h2]; simp [Context.new, Acc.withCapacity]⟩
  refine ⟨byteEvent_tame, key N, fun h => ?_⟩
  obtain ⟨m, xs, c, h1, h2⟩ := key 2
  have := h _ () _ rfl cap 2 m xs c h1
  omega

/-- Records of four bytes. -/
def fourEvent (_ : Unit) (w : List U8) : Except Err (SeekFrom × Event) × Unit :=
  (if w.length < 4 then .error (.MoreDataNeeded 4) else .ok (.current 4, .Continue), ())

theorem fourEvent_tame : Tame 4 fourEvent := by
  intro d w
  by_cases h : w.length < 4
  · simp [fourEvent, h]
  · simp only [fourEvent, if_neg h]
    refine ⟨fun n hn => by simp at hn, fun sk ev he => ?_⟩
    simp only [Except.ok.injEq, Prod.mk.injEq] at he
    obtain ⟨rfl, rfl⟩ := he
    exact ⟨⟨4, by omega, rfl⟩, fun n hn => by cases hn⟩

/-- With a reader that delivers single bytes, a file of 12 bytes takes a buffer of 48. -/
example : (match readEvents (windowDemuxer (fun d info _ => (.ok (.current 0), d, info)) fourEvent) accBuffered 9 3
      (Context.new () (Acc.withCapacity 0 ⟨List.replicate 12 7, 0, fun _ => ⟨none, 0⟩, 0⟩)) with
    | .ok (xs, c) => decide (xs = [.ok .Continue, .ok .Continue, .ok .Continue] ∧ c.reader.buf.length = 48)
    | _ => false) = true := by decide

end Verif.Demux
