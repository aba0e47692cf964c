import Verif.Demux.Props

/-!
# Properties C35 and C36: termination; C68
-/

namespace Verif.Demux
open Verif Verif.Io Verif.Frame Verif.Stream Verif.Packet

variable {D : Type}

/-! ### C35 -/

theorem win_le {dat r} (h : Acc.Inv dat r) : (Acc.win r).length ≤ dat.length := by
  rw [Acc.win_length h]
  rcases h.inData with h' | h' <;> omega

/-- A demuxer that answers, and whose requests neither move the reader nor shrink its window and are either
for more than is buffered or bring its own state forward. -/
structure Polite (dm : Demuxer D Acc.Acc) (dat : List U8) (μ : D → Nat) : Prop where
  api : UsesApi dm
  returns : ∀ d r, Acc.Inv dat r → ∃ x d' r', dm.readEvent d r = .ok (x, d', r')
  asks : ∀ c n c', Acc.Inv dat c.reader → Asks dm accBuffered c n c' →
    (Acc.win c.reader).length ≤ (Acc.win c'.reader).length ∧
      ((Acc.win c'.reader).length < n ∨ μ c'.demuxer < μ c.demuxer)

theorem Polite.terminates {dm : Demuxer D Acc.Acc} {dat : List U8} {μ : D → Nat} (hp : Polite dm dat μ) :
    ∀ (a b : Nat) (c : Context D Acc.Acc), Acc.Inv dat c.reader → dat.length - (Acc.win c.reader).length = a →
      μ c.demuxer = b → ∃ fuel x c', readEvent dm accBuffered fuel c = .ok (x, c') := by
  intro a
  induction a using Nat.strongRecOn with
  | ind a iha =>
    intro b
    induction b using Nat.strongRecOn with
    | ind b ihb =>
      intro c hi ha hb
      -- the first call
      have hint : ∃ x c1, readEventInternal dm accBuffered c = .ok (x, c1) := by
        obtain ⟨x, d', r', h1⟩ := hp.returns c.demuxer c.reader hi
        obtain ⟨_, _, _, hr⟩ := hp.api.1 _ _ _ _ _ h1
        unfold readEventInternal
        rw [h1]
        simp only [ok_bind]
        cases x with
        | error e => exact ⟨_, _, rfl⟩
        | ok v =>
          obtain ⟨sk, ev⟩ := v
          obtain ⟨y, r'', s1, _⟩ := Acc.seek_spec (run_inv hi hr).1 sk
          simp only [show accBuffered.seek = Acc.seek from rfl, s1, ok_bind]
          cases y with
          | error e => exact ⟨_, _, rfl⟩
          | ok m => cases ev <;> exact ⟨_, _, rfl⟩
      obtain ⟨x, c1, h1⟩ := hint
      rcases internal_spec h1 with h2 | ⟨n, rfl, h2⟩
      · exact ⟨1, x, c1, readEvent_answers 0 h2⟩
      · have hi1 := h2.inv hp.api hi
        obtain ⟨p1, p2⟩ := hp.asks _ _ _ hi h2
        have hd1 : accBuffered.data c1.reader = .ok (Acc.win c1.reader) := Acc.data_ok hi1
        have hle := win_le hi1
        have hle0 := win_le hi
        by_cases h3 : n ≤ (Acc.win c1.reader).length
        · have hmu : μ c1.demuxer < μ c.demuxer := by omega
          have hround : Round dm accBuffered c c1 := .again h2 hd1 h3
          have : ∃ fuel x c', readEvent dm accBuffered fuel c1 = .ok (x, c') := by
            by_cases hw : (Acc.win c.reader).length < (Acc.win c1.reader).length
            · exact iha _ (by omega) _ c1 hi1 rfl rfl
            · exact ihb _ (by omega) c1 hi1 (by omega) rfl
          obtain ⟨fuel, x, c', h⟩ := this
          exact ⟨fuel + 1, x, c', by rw [readEvent_round fuel hround]; exact h⟩
        · obtain ⟨z, r, f1, f2⟩ := Acc.fillBuf_spec (Acc.grow_inv hi1 n).1
          obtain ⟨f2, g, e⟩ := fill_grown hi1 f1
          have hd2 : accBuffered.data r = .ok (Acc.win r) := Acc.data_ok f2.inv
          cases z with
          | error er => exact ⟨1, _, _, readEvent_runsOut 0 (.readError h2 hd1 (by omega) f1)⟩
          | ok l =>
            by_cases hw : (Acc.win r).length ≤ (Acc.win c1.reader).length
            · exact ⟨1, _, _, readEvent_runsOut 0 (.eof h2 hd1 (by omega) f1 hd2 hw)⟩
            · have hround : Round dm accBuffered c _ := .more h2 hd1 (by omega) f1 hd2 (by omega)
              have hle2 := win_le f2.inv
              obtain ⟨fuel, x, c', h⟩ := iha (dat.length - (Acc.win r).length) (by omega) _
                ⟨c1.demuxer, r, c1.info, c1.user_private⟩ f2.inv rfl rfl
              exact ⟨fuel + 1, x, c', by rw [readEvent_round fuel hround]; exact h⟩

/-- C35, partial (the statement as given is false, see `c35_fails`). A demuxer that decides by its state and
the buffered bytes, and whose every request either is for more bytes *in total* than are buffered or brings
its own state forward (and does not seek), gets an answer: `read_event` returns. Missing: requests for `k`
more bytes in the documented sense with `k` at most the number of bytes already buffered. -/
theorem c35_terminates_partial (header : D → GlobalInfo → List U8 → Except Err SeekFrom × D × GlobalInfo)
    (event : D → List U8 → Except Err (SeekFrom × Event) × D) (μ : D → Nat)
    (h1 : ∀ d w n, (event d w).1 = .error (.MoreDataNeeded n) → w.length < n ∨ μ (event d w).2 < μ d)
    (h2 : ∀ d w sk n, (event d w).1 = .ok (sk, .MoreDataNeeded n) →
      sk = .current 0 ∧ (w.length < n ∨ μ (event d w).2 < μ d))
    (dat : List U8) (cap : Nat) (script : Nat → Act) (ops : List Acc.Op) (os : List Acc.Out)
    (c : Context D Acc.Acc) (hr : Acc.Reachable dat cap script ops os c.reader) :
    ∃ fuel x c', readEvent (windowDemuxer header event) accBuffered fuel c = .ok (x, c') := by
  refine Polite.terminates (dm := windowDemuxer header event) (dat := dat) (μ := μ)
    ⟨windowDemuxer_api _ _, ?_, ?_⟩ _ _ c hr.inv.1 rfl rfl
  · intro d r hi
    exact ⟨_, _, _, by simp only [windowDemuxer, Acc.data_ok hi, ok_bind, pure_eq_ok]; rfl⟩
  · intro c n c' hi ha
    have hcall : (windowDemuxer header event).readEvent c.demuxer c.reader =
        .ok ((event c.demuxer (Acc.win c.reader)).1, (event c.demuxer (Acc.win c.reader)).2, c.reader) := by
      simp only [windowDemuxer, Acc.data_ok hi, ok_bind, pure_eq_ok]
    cases ha with
    | error a =>
      rw [hcall] at a
      simp only [Except.ok.injEq, Prod.mk.injEq] at a
      obtain ⟨a1, a2, a3⟩ := a
      have := h1 _ _ _ a1
      subst a2 a3
      exact ⟨Nat.le_refl _, this⟩
    | event a b =>
      rw [hcall] at a
      simp only [Except.ok.injEq, Prod.mk.injEq] at a
      obtain ⟨a1, a2, a3⟩ := a
      obtain ⟨hs, this⟩ := h2 _ _ _ _ a1
      subst a2 a3 hs
      have hpos := Acc.Inv.position hi
      have b' : Acc.seek c.reader (.current 0) = _ := b
      unfold Acc.streamPosition at hpos
      rw [hpos] at b'
      cases b'
      exact ⟨Nat.le_refl _, this⟩

/-- The sample demuxer meets the hypotheses. -/
theorem sampleParse_asks (w : List U8) (n : Nat) : (sampleParse w = .error (.MoreDataNeeded n) → w.length < n) ∧
    ∀ sk, sampleParse w = .ok (sk, .MoreDataNeeded n) → sk = .current 0 ∧ w.length < n := by
  unfold sampleParse
  split
  · simp; omega
  · simp; omega
  · simp
  · simp
  · split
    · rename_i h
      simp; omega
    · simp

example : ∃ fuel x c', readEvent sampleDemuxer accBuffered fuel (sampleContext 1) = .ok (x, c') := by
  refine c35_terminates_partial _ _ (fun _ => 0) ?_ ?_ sampleBytes 1 sampleActs [] [] _
    ⟨⟨sampleBytes, 0, sampleActs, 0⟩, 0, rfl, rfl, rfl, rfl⟩
  · intro d w n h; exact .inl ((sampleParse_asks w n).1 h)
  · intro d w sk n h; exact ⟨((sampleParse_asks w n).2 sk h).1, .inl ((sampleParse_asks w n).2 sk h).2⟩

/-- Records of four bytes; asks for as many more bytes as are missing. -/
def fourDemuxer : Demuxer Unit Acc.Acc :=
  windowDemuxer (fun d info _ => (.ok (.current 0), d, info))
    (fun d w => (if w.length < 4 then .error (.MoreDataNeeded (4 - w.length)) else .ok (.current 4, .Continue), d))

/-- After `read_headers`, two bytes of ten are buffered. -/
def fourContext : Context Unit Acc.Acc :=
  Context.new () ⟨⟨List.replicate 10 1, 2, fun _ => ⟨none, 9⟩, 1⟩, [1, 1], 0, 2, 0⟩

/-- C35 fails: two of four bytes are buffered, the demuxer asks for the two more bytes it needs (the meaning
given by the error's text), eight more are to be had, and `read_event` calls it again and again without
reading any. -/
theorem c35_fails :
    (∃ x, readHeaders fourDemuxer accBuffered 1
      (Context.new () (Acc.withCapacity 2 ⟨List.replicate 10 1, 0, fun _ => ⟨none, 9⟩, 0⟩)) = .ok (x, fourContext)) ∧
    Err.display (.MoreDataNeeded 2) = "2 more bytes needed" ∧
    ∀ fuel, readEvent fourDemuxer accBuffered fuel fourContext = .error .fuel := by
  refine ⟨⟨.ok (), rfl⟩, by decide, ?_⟩
  have hround : Round fourDemuxer accBuffered fourContext fourContext := by
    refine .again (n := 2) (w := [1, 1]) (.error ?_) rfl (by decide)
    rfl
  intro fuel
  induction fuel with
  | zero => rfl
  | succ fuel ih => rw [readEvent_round fuel hround]; exact ih

/-! ### C36 -/

/-- C36, part 1. `read_headers` returns `x` (given enough rounds) if and only if after some rounds of
filling, asking and growing the reader fails or the demuxer answers with an error that is not a request or
accepts, and `x` says so; it is `Ok` exactly when the demuxer accepts. -/
theorem c36_result {R : Type} {dm : Demuxer D R} {bf : Buffered R} (c c' : Context D R) (x : Except Err Unit) :
    (∃ fuel, readHeaders dm bf fuel c = .ok (x, c')) ↔ ∃ c0, HRounds dm bf c c0 ∧ HLast dm bf c0 x c' := by
  constructor
  · rintro ⟨fuel, h⟩; exact readHeaders_spec fuel h
  · rintro ⟨c0, h1, h2⟩
    obtain ⟨N, hN⟩ := h1.complete h2
    exact ⟨N, hN N (Nat.le_refl _)⟩

/-- C36, part 2, over `AccReader`: a request for at least one byte, followed by the next `fill_buf`, shows
the demuxer a longer window than before, with the same bytes at its front, unless the stream has ended. -/
theorem c36_grows (dat : List U8) (cap : Nat) (script : Nat → Act) (ops : List Acc.Op) (os : List Acc.Out)
    (r r' : Acc.Acc) (w l : List U8) (n : Nat) (hr : Acc.Reachable dat cap script ops os r)
    (hw : Acc.data r = .ok w) (hn : 0 < n) (h : Acc.fillBuf (Acc.grow r n) = .ok (.ok l, r')) :
    w <+: l ∧ Acc.data r' = .ok l ∧ (w.length < l.length ∨ w = dat.drop r.index) := by
  have hi := hr.inv.1
  rw [Acc.data_ok hi] at hw
  cases hw
  obtain ⟨f, g, e⟩ := fill_grown hi h
  obtain ⟨s1, s2, s3⟩ := f.shown l rfl
  rw [g] at s2 s3
  refine ⟨s2, by rw [Acc.data_ok f.inv, s1], ?_⟩
  by_cases hw : (Acc.win r).length < l.length
  · exact .inl hw
  · right
    have hlw : l = Acc.win r := (s2.eq_of_length_le (by omega)).symm
    have hend := s3 hlw (e hn)
    have hat : Acc.At dat r.index (Acc.win r) := hi.at
    rw [hat, List.take_of_length_le]
    rw [List.length_drop]
    have hidx : (Acc.grow r n).index = r.index := rfl
    omega

example : ∃ r r' l, Acc.Reachable sampleBytes 1 sampleActs [.fillBuf] [.shown [2]] r ∧ Acc.data r = .ok [2] ∧
    Acc.fillBuf (Acc.grow r 3) = .ok (.ok l, r') ∧ l = [2, 10, 11] := by
  refine ⟨_, _, _, ⟨⟨sampleBytes, 0, sampleActs, 0⟩, 1, rfl, rfl, rfl, rfl⟩, rfl, rfl, rfl⟩

/-- The window the demuxer sees next grows until the headers fit. -/
theorem headers_terminate (header : D → GlobalInfo → List U8 → Except Err SeekFrom × D × GlobalInfo)
    (event : D → List U8 → Except Err (SeekFrom × Event) × D) (m : Nat)
    (h1 : ∀ d i w, w.length < m → ∃ n, 0 < n ∧ (header d i w).1 = .error (.MoreDataNeeded n))
    (h2 : ∀ d i w, m ≤ w.length → ∃ sk, (header d i w).1 = .ok sk) (dat : List U8) (script : Nat → Act)
    (hs : ∀ k, (script k).fail = none) :
    ∀ (a : Nat) (c : Context D Acc.Acc), Acc.Inv dat c.reader → c.reader.inner.script = script →
      (m ≤ (Acc.win c.reader).length ∨
        (Acc.win c.reader).length < c.reader.buf.length ∧ c.reader.index + m ≤ dat.length) →
      m - (Acc.win c.reader).length ≤ a →
      ∃ c', readHeaders (windowDemuxer header event) accBuffered (a + 1) c = .ok (.ok (), c') := by
  intro a
  induction a using Nat.strongRecOn with
  | ind a ih =>
    intro c hi hsc hroom ha
    obtain ⟨x, r, f1, f⟩ := Acc.fillBuf_spec hi
    have f1' : accBuffered.fillBuf c.reader = .ok (x, r) := f1
    have hcall : ∀ i, (windowDemuxer header event).readHeaders c.demuxer r i =
        .ok ((header c.demuxer i (Acc.win r)).1, (header c.demuxer i (Acc.win r)).2.1, r,
          (header c.demuxer i (Acc.win r)).2.2) := by
      intro i
      simp only [windowDemuxer, Acc.data_ok f.inv, ok_bind, pure_eq_ok]
    cases x with
    | error e =>
      obtain ⟨_, hf, _⟩ := f.error e rfl
      rw [hsc, hs] at hf
      cases hf
    | ok l =>
      obtain ⟨s1, s2, s3⟩ := f.shown l rfl
      have hlen : (Acc.win c.reader).length ≤ l.length := s2.length_le
      by_cases hm : m ≤ (Acc.win r).length
      · obtain ⟨sk, hsk⟩ := h2 c.demuxer c.info _ hm
        obtain ⟨y, r'', k1, _⟩ := Acc.seek_spec f.inv sk
        have hc := hcall c.info
        rw [hsk] at hc
        exact ⟨_, readHeaders_last a (.accepted f1' hc k1)⟩
      · obtain ⟨n, hn, hask⟩ := h1 c.demuxer c.info (Acc.win r) (by omega)
        have hc := hcall c.info
        rw [hask] at hc
        have hround : HRound (windowDemuxer header event) accBuffered c _ := .mk f1' hc rfl
        have hgrew : (Acc.win c.reader).length < (Acc.win r).length := by
          rw [← s1]
          apply Decidable.byContradiction
          intro hng
          have hlw : l = Acc.win c.reader := (s2.eq_of_length_le (by omega)).symm
          rw [s1] at hlen
          rcases hroom with hroom | ⟨q1, q2⟩
          · omega
          · have := s3 hlw q1
            rw [← s1, hlw] at hm
            omega
        obtain ⟨g1, g2⟩ := Acc.grow_inv f.inv n
        have hwl : (Acc.win (Acc.grow r n)).length = (Acc.win r).length := by rw [g2]
        have key : ∃ b, a = b + 1 := ⟨a - 1, by omega⟩
        obtain ⟨b, rfl⟩ := key
        have h4 := f.inv.eb
        have h5 := Acc.win_length f.inv
        have h6 := f.index
        obtain ⟨c', hc'⟩ := ih b (by omega) ⟨(header c.demuxer c.info (Acc.win r)).2.1, Acc.grow r n,
          (header c.demuxer c.info (Acc.win r)).2.2, c.user_private⟩ g1 (f.script.trans hsc)
          (by
            right
            refine ⟨?_, ?_⟩
            · change (Acc.win (Acc.grow r n)).length < _
              rw [hwl, h5]; simp only [Acc.grow, List.length_append, List.length_replicate]; omega
            · change r.index + m ≤ _
              rcases hroom with hroom | ⟨_, q2⟩ <;> omega)
          (by change m - (Acc.win (Acc.grow r n)).length ≤ _; omega)
        exact ⟨c', by rw [readHeaders_round (b + 1) hround]; exact hc'⟩

/-- C36, part 3, partial (termination on truncated streams is false, see `c36_fails`). For a demuxer that
needs the first `m` bytes for its headers and asks for at least one byte while it has fewer, a stream that
has these `m` bytes and does not fail, and a reader that is not full (as a new one), `read_headers` succeeds
after at most `m + 1` rounds. Missing: streams that end before. -/
theorem c36_succeeds_partial (header : D → GlobalInfo → List U8 → Except Err SeekFrom × D × GlobalInfo)
    (event : D → List U8 → Except Err (SeekFrom × Event) × D) (m : Nat)
    (h1 : ∀ d i w, w.length < m → ∃ n, 0 < n ∧ (header d i w).1 = .error (.MoreDataNeeded n))
    (h2 : ∀ d i w, m ≤ w.length → ∃ sk, (header d i w).1 = .ok sk)
    (dat : List U8) (cap : Nat) (script : Nat → Act) (hs : ∀ k, (script k).fail = none)
    (ops : List Acc.Op) (os : List Acc.Out) (c : Context D Acc.Acc) (w : List U8)
    (hr : Acc.Reachable dat cap script ops os c.reader) (hw : Acc.data c.reader = .ok w)
    (hroom : w.length < c.reader.buf.length) (hm : c.reader.index + m ≤ dat.length) :
    ∃ c', readHeaders (windowDemuxer header event) accBuffered (m + 1) c = .ok (.ok (), c') := by
  have hi := hr.inv
  rw [Acc.data_ok hi.1] at hw
  cases hw
  exact headers_terminate header event m h1 h2 dat script hs m c hi.1 hi.2.2.1 (.inr ⟨hroom, hm⟩) (by omega)

/-- The header of the sample is three bytes. -/
example : ∃ c', readHeaders sampleDemuxer accBuffered 4 (sampleContext 1) = .ok (.ok (), c') := by
  refine c36_succeeds_partial _ _ 3 ?_ ?_ sampleBytes 1 sampleActs (fun _ => rfl) [] [] _ []
    ⟨⟨sampleBytes, 0, sampleActs, 0⟩, 0, rfl, rfl, rfl, rfl⟩ rfl (by decide) (by decide)
  · intro d i w h; exact ⟨3 - w.length, by omega, by simp [sampleHeader, h]⟩
  · intro d i w h; exact ⟨.current 3, by simp [sampleHeader, show ¬ w.length < 3 by omega]⟩

/-- A stream of one byte, where the headers take three. -/
def shortContext (k : Nat) (buf : Nat) : Context Unit Acc.Acc :=
  Context.new () ⟨⟨[9], 1, fun _ => ⟨none, 0⟩, k⟩, 9 :: List.replicate buf 0, 0, 1, 0⟩

/-- C36 fails: on a stream that ends before the headers do, `read_headers` loops for ever. (In Rust the
buffer grows in every round, until memory is exhausted.) -/
theorem c36_fails : ∀ fuel, readHeaders sampleDemuxer accBuffered fuel
    (Context.new () (Acc.withCapacity 1 ⟨[9], 0, fun _ => ⟨none, 0⟩, 0⟩)) = .error .fuel := by
  have hround : ∀ k buf, HRound sampleDemuxer accBuffered (shortContext k (buf + 1)) (shortContext (k + 1) (buf + 1 + 2)) := by
    intro k buf
    have hf : accBuffered.fillBuf (shortContext k (buf + 1)).reader =
        .ok (.ok [9], (shortContext (k + 1) (buf + 1)).reader) := by
      simp [accBuffered, Acc.fillBuf, shortContext, Context.new, Acc.resetBufferPosition, usub, Acc.copyWithin0,
        sliceRange, sliceFrom, Source.read, Acc.data, List.replicate_succ]
    have hh : sampleDemuxer.readHeaders () (shortContext (k + 1) (buf + 1)).reader (shortContext k (buf + 1)).info =
        .ok (.error (.MoreDataNeeded 2), (), (shortContext (k + 1) (buf + 1)).reader, (shortContext k (buf + 1)).info) := by
      simp [sampleDemuxer, windowDemuxer, Acc.data, shortContext, Context.new, sliceRange, sampleHeader]
    have hg : accBuffered.grow (shortContext (k + 1) (buf + 1)).reader 2 =
        .ok (shortContext (k + 1) (buf + 1 + 2)).reader := by
      simp only [accBuffered, Acc.grow, shortContext, Context.new, List.cons_append, List.replicate_append_replicate]
    exact HRound.mk hf hh hg
  have hloop : ∀ fuel k buf, readHeaders sampleDemuxer accBuffered fuel (shortContext k (buf + 1)) = .error .fuel := by
    intro fuel
    induction fuel with
    | zero => intro k buf; rfl
    | succ fuel ih => intro k buf; rw [readHeaders_round fuel (hround k buf)]; exact ih _ _
  have hfirst : HRound sampleDemuxer accBuffered
      (Context.new () (Acc.withCapacity 1 ⟨[9], 0, fun _ => ⟨none, 0⟩, 0⟩)) (shortContext 1 2) :=
    HRound.mk (l := [9]) (r := (shortContext 1 0).reader) (r' := (shortContext 1 0).reader) (n := 2) rfl rfl rfl
  intro fuel
  cases fuel with
  | zero => rfl
  | succ fuel => rw [readHeaders_round fuel hfirst]; exact hloop fuel 1 1

/-! ### C68 -/

/-- A stream that fails once, at the second operation. -/
def failsOnce : Source := ⟨sampleBytes, 0, fun k => ⟨if k = 1 then some (.other 5) else none, 9⟩, 0⟩

/-- Accepts any window and wants to go on at byte 100. -/
def farDemuxer : Demuxer Unit Acc.Acc :=
  windowDemuxer (fun d info _ => (.ok (.start 100), d, info)) (fun d _ => (.ok (.current 0, .Continue), d))

/-- C68 fails: the seek the demuxer asked for fails, `read_headers` returns `Ok` and the reader still stands
at the start of the stream. -/
theorem c68_fails : ∃ r c', Acc.fillBuf (Acc.withCapacity 4 failsOnce) = .ok (.ok [2, 10, 11, 0], r) ∧
    (∃ r', Acc.seek r (.start 100) = .ok (.error (.other 5), r')) ∧
    readHeaders farDemuxer accBuffered 1 (Context.new () (Acc.withCapacity 4 failsOnce)) = .ok (.ok (), c') ∧
    ∃ r', Acc.streamPosition c'.reader = .ok (.ok 0, r') :=
  ⟨_, _, rfl, ⟨_, rfl⟩, rfl, _, rfl⟩

/-- C68, partial: when the seek succeeds the reader is where the demuxer asked it to be (for any reader), and
`read_event` does report a failed seek. Missing: failing seeks of `read_headers`. -/
theorem c68_partial {R : Type} {dm : Demuxer D R} {bf : Buffered R} (fuel : Nat) (c c' : Context D R)
    (h : readHeaders dm bf fuel c = .ok (.ok (), c')) :
    ∃ d r i sk d' r' i' y, dm.readHeaders d r i = .ok (.ok sk, d', r', i') ∧ bf.seek r' sk = .ok (y, c'.reader) ∧
      c'.info = i' ∧ c'.demuxer = d' := by
  obtain ⟨c0, _, h2⟩ := readHeaders_spec fuel h
  generalize hx : (Except.ok () : Except Err Unit) = x at h2
  cases h2 with
  | readError => cases hx
  | error => cases hx
  | accepted a1 a2 a3 => exact ⟨_, _, _, _, _, _, _, _, a2, a3, rfl, rfl⟩

/-- C68 for `read_event`: a failed seek is reported. -/
theorem c68_event_partial {R : Type} {dm : Demuxer D R} {bf : Buffered R} (fuel : Nat) (c : Context D R)
    (d : D) (r r' : R) (sk : SeekFrom) (ev : Event) (e : IoErr)
    (h : dm.readEvent c.demuxer c.reader = .ok (.ok (sk, ev), d, r)) (hs : bf.seek r sk = .ok (.error e, r')) :
    readEvent dm bf (fuel + 1) c = .ok (.error (.Io e), ⟨d, r', c.info, c.user_private⟩) :=
  readEvent_answers fuel (.seekError h hs)

/-- C68, the exact rule: `read_headers` returns `Ok` just when, after some rounds of asking for more, the demuxer
accepts and the seek it asks for returns at all; whether that seek succeeds or fails is of no account. Missing for
C68: a failing seek should be reported. -/
theorem c68_exact_partial {R : Type} {dm : Demuxer D R} {bf : Buffered R} (c c' : Context D R) :
    (∃ fuel, readHeaders dm bf fuel c = .ok (.ok (), c')) ↔
      ∃ c0 l r sk d r' i y r'', HRounds dm bf c c0 ∧ bf.fillBuf c0.reader = .ok (.ok l, r) ∧
        dm.readHeaders c0.demuxer r c0.info = .ok (.ok sk, d, r', i) ∧ bf.seek r' sk = .ok (y, r'') ∧
        c' = ⟨d, r'', i, c0.user_private⟩ := by
  constructor
  · intro ⟨fuel, h⟩
    obtain ⟨c0, h1, h2⟩ := readHeaders_spec fuel h
    generalize hx : (Except.ok () : Except Err Unit) = x at h2
    cases h2 with
    | readError => cases hx
    | error => cases hx
    | accepted a1 a2 a3 => exact ⟨c0, _, _, _, _, _, _, _, _, h1, a1, a2, a3, rfl⟩
  · intro ⟨c0, l, r, sk, d, r', i, y, r'', h1, a1, a2, a3, hc⟩
    subst hc
    induction h1 with
    | refl => exact ⟨1, readHeaders_last 0 (.accepted a1 a2 a3)⟩
    | step hr _ ih =>
      obtain ⟨fuel, h⟩ := ih a1 a2
      exact ⟨fuel + 1, by rw [readHeaders_round fuel hr]; exact h⟩

/-- The right-hand side is met with a failing seek. -/
example : ∃ r r'', accBuffered.fillBuf (Acc.withCapacity 4 failsOnce) = .ok (.ok [2, 10, 11, 0], r) ∧
    accBuffered.seek r (.start 100) = .ok (.error (.other 5), r'') := ⟨_, _, rfl, rfl⟩

end Verif.Demux
