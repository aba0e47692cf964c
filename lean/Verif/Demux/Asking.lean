import Verif.Demux.Jumps
import Verif.Demux.Diverge

/-!
# Property C177: whatever a demuxer asks for, read_event returns what the file says

C90 and C152 are for formats that ask for more bytes than they were shown, which the documentation does not demand and the
demuxer of the library's own tests does not do. `MoreDataNeeded(n)` is documented as the number of bytes that are missing;
`read_event` compares it with the number of bytes it has (C35). Here demuxers ask for any amounts, and they may also answer
that the data is invalid.
-/

namespace Verif.Demux
open Verif Verif.Io Verif.Frame Verif.Stream Verif.Packet

variable {D : Type}

/-- What a demuxer says of the bytes it sees: while it asks it stays as it is, and when it has answered, more bytes would not
change the answer. It goes back only with absolute positions, and if it goes on without an event it asks for nothing. -/
structure Settled (event : D → List U8 → Except Err (SeekFrom × Event) × D) : Prop where
  stable : ∀ d w u, (∀ n, (event d w).1 ≠ .error (.MoreDataNeeded n)) → event d (w ++ u) = event d w
  asks : ∀ d w n, (event d w).1 = .error (.MoreDataNeeded n) → (event d w).2 = d
  again : ∀ d w sf n, (event d w).1 = .ok (sf, .MoreDataNeeded n) → n = 0
  forward : ∀ d w k ev, (event d w).1 = .ok (.current k, ev) → 0 ≤ k

/-! ### the specification: a reader of the whole file that stands at a position -/

inductive Step (D : Type)
  | done (x : Except Err Event) (d : D) (q : Nat)
  | goto (d : D) (q : Nat)

/-- The demuxer is shown everything from `p` on. If that is not enough, the file has ended. -/
def stepAt (event : D → List U8 → Except Err (SeekFrom × Event) × D) (dat : List U8) (d : D) (p : Nat) : Step D :=
  match event d (dat.drop p) with
  | (.error (.MoreDataNeeded _), _) => .done (.ok .Eof) d p
  | (.error e, d') => .done (.error e) d' p
  | (.ok (sf, ev), d') =>
    match goal dat.length p sf, ev with
    | none, _ => .done (.error (.Io .invalidInput)) d' p
    | some q, .MoreDataNeeded _ => .goto d' q
    | some q, ev => .done (.ok ev) d' q

/-- The next event or error from `p` on after at most `f` steps, and the state and position then. -/
def found (event : D → List U8 → Except Err (SeekFrom × Event) × D) (dat : List U8) :
    Nat → D → Nat → Option (Except Err Event × D × Nat)
  | 0, _, _ => none
  | f + 1, d, p =>
    match stepAt event dat d p with
    | .done x d q => some (x, d, q)
    | .goto d q => found event dat f d q

/-! ### proofs -/

variable {header : D → GlobalInfo → List U8 → Except Err SeekFrom × D × GlobalInfo}
  {event : D → List U8 → Except Err (SeekFrom × Event) × D}

theorem seek_any {dat : List U8} {r : Acc.Acc} (hi : Acc.Inv dat r)
    (sf : SeekFrom) (hb : ∀ k, sf = .current k → 0 ≤ k) :
    ∃ x r', Acc.seek r sf = .ok (x, r') ∧ Acc.Inv dat r' ∧ r'.inner.script = r.inner.script ∧
      ((∃ q, goal dat.length r.index sf = some q ∧ x = .ok q ∧ r'.index = q) ∨
       (goal dat.length r.index sf = none ∧ x = .error .invalidInput ∧ r'.index = r.index) ∨
       ((¬ ∀ k, (r.inner.script k).fail = none) ∧ ∃ e, x = .error e)) := by
  by_cases hs : ∀ k, (r.inner.script k).fail = none
  · obtain ⟨x, r', h1, h2, h3, _, h4⟩ := seek_goal hi hs sf hb
    refine ⟨x, r', h1, h2, h3, ?_⟩
    cases hg : goal dat.length r.index sf with
    | some q => rw [hg] at h4; exact .inl ⟨q, rfl, h4⟩
    | none => rw [hg] at h4; exact .inr (.inl ⟨rfl, h4⟩)
  · obtain ⟨x, r', s1, s2⟩ := Acc.seek_spec hi sf
    refine ⟨x, r', s1, s2.inv, s2.script, ?_⟩
    cases x with
    | error e => exact .inr (.inr ⟨hs, e, rfl⟩)
    | ok n =>
      obtain ⟨h1, h2⟩ := s2.ok n rfl
      refine .inl ⟨n, ?_, rfl, h2⟩
      cases sf with
      | start m =>
        simp only [Acc.seekTarget] at h1
        simp only [goal, Option.some.injEq]
        omega
      | «end» d =>
        rw [Acc.seekTarget, hi.src] at h1
        simp only [goal]
        rw [if_pos (by omega)]
        simp only [Option.some.injEq]
        omega
      | current d =>
        have hd := hb d rfl
        rw [Acc.seekTarget, if_pos hd] at h1
        simp only [goal]
        rw [if_pos (by omega)]
        simp only [Option.some.injEq]
        omega

/-- One round of `read_event`. -/
inductive ARound (header : D → GlobalInfo → List U8 → Except Err SeekFrom × D × GlobalInfo)
    (event : D → List U8 → Except Err (SeekFrom × Event) × D) (dat : List U8) (c c' : Context D Acc.Acc) : Prop
  | answer {x d' q} : stepAt event dat c.demuxer c.reader.index = .done x d' q → c'.demuxer = d' → c'.reader.index = q →
      c'.info = { c.info with streams := c.info.streams ++ announced x } →
      (∀ a, readEvent (windowDemuxer header event) accBuffered (a + 1) c = .ok (handed c.info.streams x, c')) →
      ARound header event dat c c'
  | jump {d' q} : stepAt event dat c.demuxer c.reader.index = .goto d' q → c'.demuxer = d' → c'.reader.index = q →
      c'.info = c.info → Round (windowDemuxer header event) accBuffered c c' → ARound header event dat c c'
  | more : c'.demuxer = c.demuxer → c'.reader.index = c.reader.index → c'.info = c.info →
      (Acc.win c.reader).length < (Acc.win c'.reader).length →
      Round (windowDemuxer header event) accBuffered c c' → ARound header event dat c c'
  | stuck {n} : c' = c → (event c.demuxer (Acc.win c.reader)).1 = .error (.MoreDataNeeded n) →
      n ≤ (Acc.win c.reader).length → Round (windowDemuxer header event) accBuffered c c' → ARound header event dat c c'
  | io {e} : (¬ ∀ k, (c.reader.inner.script k).fail = none) →
      (∀ a, readEvent (windowDemuxer header event) accBuffered (a + 1) c = .ok (.error (.Io e), c')) → ARound header event dat c c'

theorem asking_round (hst : Settled event) (dat : List U8) (c : Context D Acc.Acc) (hi : Acc.Inv dat c.reader) :
    ∃ c', Acc.Inv dat c'.reader ∧ c'.reader.inner.script = c.reader.inner.script ∧ ARound header event dat c c' := by
  have hcall : (windowDemuxer header event).readEvent c.demuxer c.reader =
      .ok ((event c.demuxer (Acc.win c.reader)).1, (event c.demuxer (Acc.win c.reader)).2, c.reader) := by
    simp only [windowDemuxer, Acc.data_ok hi, ok_bind, pure_eq_ok]
  obtain ⟨u, hu⟩ := win_prefix hi
  cases hp : event c.demuxer (Acc.win c.reader) with
  | mk x d' =>
  rw [hp] at hcall
  simp only at hcall
  have hsame : (∀ n, x ≠ .error (.MoreDataNeeded n)) → event c.demuxer (dat.drop c.reader.index) = (x, d') := by
    intro h
    rw [hu, hst.stable _ _ _ (by rw [hp]; exact h), hp]
  cases x with
  | ok y =>
    obtain ⟨sf, ev⟩ := y
    have hall := hsame (fun n h => nomatch h)
    obtain ⟨z, r', s1, s2, s3, s4⟩ := seek_any hi sf (fun k hk => hst.forward c.demuxer (Acc.win c.reader) k ev (by rw [hp, hk]))
    rcases s4 with ⟨q, hg, rfl, hq⟩ | ⟨hg, rfl, hq⟩ | ⟨hf, e, rfl⟩
    · by_cases hev : ∃ n, ev = .MoreDataNeeded n
      · obtain ⟨n, rfl⟩ := hev
        obtain rfl := hst.again c.demuxer (Acc.win c.reader) sf n (by rw [hp])
        have hask : Asks (windowDemuxer header event) accBuffered c 0 _ := .event hcall s1
        have hround : Round (windowDemuxer header event) accBuffered c _ := .again hask (Acc.data_ok s2) (Nat.zero_le _)
        refine ⟨⟨d', r', c.info, c.user_private⟩, s2, s3, .jump (d' := d') (q := q) ?_ rfl hq rfl hround⟩
        simp only [stepAt, hall, hg]
      · have hn : ∀ n, ev ≠ .MoreDataNeeded n := fun n h => hev ⟨n, h⟩
        have hans : Answers (windowDemuxer header event) accBuffered c _ _ := .event hcall s1 (deliver c.info.streams ev hn)
        refine ⟨_, s2, s3, .answer (x := .ok ev) (d' := d') (q := q) ?_ rfl hq (by rw [announced_completed])
          fun a => readEvent_answers a hans⟩
        simp only [stepAt, hall, hg]
    · have hans : Answers (windowDemuxer header event) accBuffered c _ _ := .seekError hcall s1
      refine ⟨⟨d', r', c.info, c.user_private⟩, s2, s3, .answer (x := .error (.Io .invalidInput)) (d' := d') (q := c.reader.index)
        ?_ rfl hq (by simp [announced]) fun a => readEvent_answers a hans⟩
      simp only [stepAt, hall, hg]
    · have hans : Answers (windowDemuxer header event) accBuffered c _ _ := .seekError hcall s1
      exact ⟨⟨d', r', c.info, c.user_private⟩, s2, s3, .io hf fun a => readEvent_answers a hans⟩
  | error er =>
    by_cases hn : ∃ n, er = .MoreDataNeeded n
    · obtain ⟨n, rfl⟩ := hn
      have hd' : d' = c.demuxer := by
        have := hst.asks c.demuxer (Acc.win c.reader) n (by rw [hp])
        rw [hp] at this
        exact this
      subst hd'
      have hask : Asks (windowDemuxer header event) accBuffered c n _ := .error hcall
      have hd1 : accBuffered.data c.reader = .ok (Acc.win c.reader) := Acc.data_ok hi
      by_cases hlt : (Acc.win c.reader).length < n
      · obtain ⟨z, r, f1, _⟩ := Acc.fillBuf_spec (Acc.grow_inv hi n).1
        obtain ⟨f2, g, e⟩ := fill_grown hi f1
        have hroom := e (by omega)
        have hd2 : accBuffered.data r = .ok (Acc.win r) := Acc.data_ok f2.inv
        have hidx : r.index = c.reader.index := f2.index
        cases z with
        | error er =>
          have hf := (f2.error er rfl).2.1
          have : (Acc.grow c.reader n).inner = c.reader.inner := rfl
          rw [this] at hf
          have hend : RunsOut (windowDemuxer header event) accBuffered c _ _ := .readError hask hd1 hlt f1
          exact ⟨⟨c.demuxer, r, c.info, c.user_private⟩, f2.inv, f2.script,
            .io (fun h => by rw [h] at hf; cases hf) fun a => readEvent_runsOut a hend⟩
        | ok l =>
          obtain ⟨t1, t2, t3⟩ := f2.shown l rfl
          rw [g] at t2 t3
          by_cases hw : (Acc.win r).length ≤ (Acc.win c.reader).length
          · have hend : RunsOut (windowDemuxer header event) accBuffered c _ _ := .eof hask hd1 hlt f1 hd2 hw
            refine ⟨⟨c.demuxer, r, c.info, c.user_private⟩, f2.inv, f2.script,
              .answer (x := .ok .Eof) (d' := c.demuxer) (q := c.reader.index) ?_ rfl hidx (by simp [announced])
                fun a => readEvent_runsOut a hend⟩
            have hlw : l = Acc.win c.reader := (t2.eq_of_length_le (by rw [t1]; exact hw)).symm
            have htop := t3 hlw hroom
            have hall : dat.drop c.reader.index = Acc.win c.reader := by
              have h1 := congrArg List.length hu
              rw [List.length_drop, List.length_append] at h1
              have h2 : (Acc.grow c.reader n).index = c.reader.index := rfl
              have : u = [] := List.eq_nil_of_length_eq_zero (by omega)
              rw [hu, this, List.append_nil]
            simp only [stepAt, hall, hp]
          · have hround : Round (windowDemuxer header event) accBuffered c _ := .more hask hd1 hlt f1 hd2 (by omega)
            exact ⟨⟨c.demuxer, r, c.info, c.user_private⟩, f2.inv, f2.script,
              .more rfl hidx rfl (by change _ < (Acc.win r).length; omega) hround⟩
      · have hround : Round (windowDemuxer header event) accBuffered c _ := .again hask hd1 (by omega)
        exact ⟨c, hi, rfl, .stuck rfl (by rw [hp]) (by omega) hround⟩
    · have hn' : ∀ n, er ≠ .MoreDataNeeded n := fun n h => hn ⟨n, h⟩
      have hall := hsame (fun n h => by cases h; exact hn' n rfl)
      have hans : Answers (windowDemuxer header event) accBuffered c _ _ := .error hcall hn'
      refine ⟨⟨d', c.reader, c.info, c.user_private⟩, hi, rfl, .answer (x := .error er) (d' := d') (q := c.reader.index)
        ?_ rfl rfl (by simp [announced]) fun a => readEvent_answers a hans⟩
      simp only [stepAt, hall]

/-- What a call returns is right. -/
theorem asking_sound (hst : Settled event) (dat : List U8) (fuel : Nat) : ∀ (c c' : Context D Acc.Acc) (x : Except Err Event),
    Acc.Inv dat c.reader → readEvent (windowDemuxer header event) accBuffered fuel c = .ok (x, c') →
    Acc.Inv dat c'.reader ∧ c'.reader.inner.script = c.reader.inner.script ∧
    (((¬ ∀ k, (c.reader.inner.script k).fail = none) ∧ ∃ e, x = .error (.Io e)) ∨
    ∃ f x0 d' q, found event dat f c.demuxer c.reader.index = some (x0, d', q) ∧ x = handed c.info.streams x0 ∧
      c'.demuxer = d' ∧ c'.reader.index = q ∧ c'.info = { c.info with streams := c.info.streams ++ announced x0 }) := by
  induction fuel with
  | zero => intro c c' x _ h; cases h
  | succ fuel ih =>
    intro c c' x hi h
    obtain ⟨c1, h1, h2, h3⟩ := asking_round (header := header) hst dat c hi
    cases h3 with
    | @answer x0 d' q e1 e2 e3 e4 e5 =>
      rw [e5] at h
      cases h
      exact ⟨h1, h2, .inr ⟨1, x0, d', q, by simp only [found, e1], rfl, e2, e3, e4⟩⟩
    | @jump d' q e1 e2 e3 e4 e5 =>
      rw [readEvent_round fuel e5] at h
      obtain ⟨g1, g2, g3⟩ := ih c1 c' x h1 h
      refine ⟨g1, g2.trans h2, ?_⟩
      rw [h2] at g3
      rcases g3 with g3 | ⟨f, x0, d2, q2, g3, g4, g5, g6, g7⟩
      · exact .inl g3
      · refine .inr ⟨f + 1, x0, d2, q2, ?_, by rw [g4, e4], g5, g6, by rw [g7, e4]⟩
        simp only [found, e1, ← e2, ← e3]
        exact g3
    | more e2 e3 e4 _ e5 =>
      rw [readEvent_round fuel e5] at h
      obtain ⟨g1, g2, g3⟩ := ih c1 c' x h1 h
      refine ⟨g1, g2.trans h2, ?_⟩
      rw [h2] at g3
      rcases g3 with g3 | ⟨f, x0, d2, q2, g3, g4, g5, g6, g7⟩
      · exact .inl g3
      · exact .inr ⟨f, x0, d2, q2, by rw [← e2, ← e3]; exact g3, by rw [g4, e4], g5, g6, by rw [g7, e4]⟩
    | stuck e1 _ _ e5 =>
      rw [readEvent_round fuel e5] at h
      subst e1
      exact ih c1 c' x h1 h
    | io e1 e2 =>
      rw [e2] at h
      cases h
      exact ⟨h1, h2, .inl ⟨e1, _, rfl⟩⟩

/-- If something follows, a call returns it, or gets stuck. -/
theorem asking_returns (hst : Settled event) (dat : List U8) (f : Nat) : ∀ (a : Nat) (c : Context D Acc.Acc),
    Acc.Inv dat c.reader → dat.length - (Acc.win c.reader).length ≤ a → found event dat f c.demuxer c.reader.index ≠ none →
    (∃ fuel x c', readEvent (windowDemuxer header event) accBuffered fuel c = .ok (x, c')) ∨
    ∃ c' w n, Rounds (windowDemuxer header event) accBuffered c c' ∧ Acc.data c'.reader = .ok w ∧
      (event c'.demuxer w).1 = .error (.MoreDataNeeded n) ∧ n ≤ w.length := by
  induction f with
  | zero => intro a c _ _ h; exact absurd rfl h
  | succ f ihf =>
    intro a
    induction a using Nat.strongRecOn with
    | ind a ih =>
      intro c hi ha hf
      obtain ⟨c1, h1, h2, h3⟩ := asking_round (header := header) hst dat c hi
      cases h3 with
      | answer e1 e2 e3 e4 e5 => exact .inl ⟨1, _, _, e5 0⟩
      | jump e1 e2 e3 e4 e5 =>
        simp only [found, e1] at hf
        rcases ihf _ c1 h1 (Nat.le_refl _) (by rw [e2, e3]; exact hf) with ⟨fuel, x, c', g⟩ | ⟨c', w, n, g1, g2⟩
        · exact .inl ⟨fuel + 1, x, c', by rw [readEvent_round fuel e5]; exact g⟩
        · exact .inr ⟨c', w, n, .step e5 g1, g2⟩
      | more e2 e3 e4 e6 e5 =>
        have hle := win_le h1
        rcases ih (dat.length - (Acc.win c1.reader).length) (by omega) c1 h1 (Nat.le_refl _) (by rw [e2, e3]; exact hf) with
          ⟨fuel, x, c', g⟩ | ⟨c', w, n, g1, g2⟩
        · exact .inl ⟨fuel + 1, x, c', by rw [readEvent_round fuel e5]; exact g⟩
        · exact .inr ⟨c', w, n, .step e5 g1, g2⟩
      | @stuck n e1 e6 e7 e5 => exact .inr ⟨c, _, n, .refl, Acc.data_ok hi, e6, e7⟩
      | io e1 e2 => exact .inl ⟨1, _, _, e2 0⟩

theorem asking_stuck (hst : Settled event) {dat : List U8} {c : Context D Acc.Acc} (hi : Acc.Inv dat c.reader) {w : List U8} {n : Nat}
    (hd : Acc.data c.reader = .ok w) (h : (event c.demuxer w).1 = .error (.MoreDataNeeded n)) (hn : n ≤ w.length) :
    ∀ fuel, readEvent (windowDemuxer header event) accBuffered fuel c = .error .fuel := by
  intro fuel
  induction fuel with
  | zero => rfl
  | succ fuel ih =>
    rw [Acc.data_ok hi] at hd
    cases hd
    have hcall : (windowDemuxer header event).readEvent c.demuxer c.reader = .ok (.error (.MoreDataNeeded n), c.demuxer, c.reader) := by
      simp only [windowDemuxer, Acc.data_ok hi, ok_bind, pure_eq_ok, h, hst.asks _ _ _ h]
    have hask : Asks (windowDemuxer header event) accBuffered c n _ := .error hcall
    have hround : Round (windowDemuxer header event) accBuffered c _ := .again hask (Acc.data_ok hi) hn
    rw [readEvent_round fuel hround]
    exact ih

/-- A call returns, or does not return however long one waits. -/
theorem asking_total (hst : Settled event) (dat : List U8) (fuel : Nat) : ∀ (c : Context D Acc.Acc), Acc.Inv dat c.reader →
    readEvent (windowDemuxer header event) accBuffered fuel c = .error .fuel ∨
    ∃ x c', readEvent (windowDemuxer header event) accBuffered fuel c = .ok (x, c') := by
  induction fuel with
  | zero => exact fun c _ => .inl rfl
  | succ fuel ih =>
    intro c hi
    obtain ⟨c1, h1, h2, h3⟩ := asking_round (header := header) hst dat c hi
    cases h3 with
    | answer e1 e2 e3 e4 e5 => exact .inr ⟨_, _, e5 fuel⟩
    | jump e1 e2 e3 e4 e5 => rw [readEvent_round fuel e5]; exact ih c1 h1
    | more e2 e3 e4 e6 e5 => rw [readEvent_round fuel e5]; exact ih c1 h1
    | stuck e1 e6 e7 e5 => rw [readEvent_round fuel e5]; exact ih c1 h1
    | io e1 e2 => exact .inr ⟨_, _, e2 fuel⟩

/-! ### C177 -/

/-- **C177** Whatever the demuxer asks for, whatever the capacity of the `AccReader` and however its reader cuts the bytes up
or fails: if `read_event` returns, it returns the next event or error of the file from the position the reader stands at,
and the reader stands where the demuxer goes on then; or an I/O error, if the reader fails. -/
theorem c177_sound (header : D → GlobalInfo → List U8 → Except Err SeekFrom × D × GlobalInfo)
    (event : D → List U8 → Except Err (SeekFrom × Event) × D) (hst : Settled event)
    (dat : List U8) (cap : Nat) (script : Nat → Act) (ops : List Acc.Op) (os : List Acc.Out) (c : Context D Acc.Acc)
    (hr : Acc.Reachable dat cap script ops os c.reader) (p : Nat) (hp : Acc.StandsAt dat c.reader p)
    (fuel : Nat) (x : Except Err Event) (c' : Context D Acc.Acc)
    (h : readEvent (windowDemuxer header event) accBuffered fuel c = .ok (x, c')) :
    (∃ e, x = .error (.Io e)) ∧ (∃ k, (script k).fail ≠ none) ∨
    ∃ f x0 d' q, found event dat f c.demuxer p = some (x0, d', q) ∧ x = handed c.info.streams x0 ∧ c'.demuxer = d' ∧
      Acc.streamPosition c'.reader = .ok (.ok q, c'.reader) ∧
      c'.info = { c.info with streams := c.info.streams ++ announced x0 } := by
  have hi := hr.inv.1
  obtain ⟨h1, _, h3⟩ := asking_sound hst dat fuel c c' x hi h
  rcases h3 with ⟨h3, h4⟩ | ⟨f, x0, d', q, g1, g2, g3, g4, g5⟩
  · rw [hr.inv.2.2.1] at h3
    exact .inl ⟨h4, Classical.not_forall.1 h3⟩
  · rw [index_of_standsAt hi hp] at g1
    exact .inr ⟨f, x0, d', q, g1, g2, g3, by rw [h1.position, g4], g5⟩

/-- **C177** Over a reader that does not fail `read_event` does not return in two cases only: the demuxer steps through the
file without end or event, or it asks for no more bytes than are buffered and so is shown the same bytes again and again. -/
theorem c177_exact (header : D → GlobalInfo → List U8 → Except Err SeekFrom × D × GlobalInfo)
    (event : D → List U8 → Except Err (SeekFrom × Event) × D) (hst : Settled event)
    (dat : List U8) (cap : Nat) (script : Nat → Act) (hs : ∀ k, (script k).fail = none)
    (ops : List Acc.Op) (os : List Acc.Out) (c : Context D Acc.Acc)
    (hr : Acc.Reachable dat cap script ops os c.reader) (p : Nat) (hp : Acc.StandsAt dat c.reader p) :
    (∀ fuel, readEvent (windowDemuxer header event) accBuffered fuel c = .error .fuel) ↔
    (∀ f, found event dat f c.demuxer p = none) ∨
    ∃ c' w n, Rounds (windowDemuxer header event) accBuffered c c' ∧ Acc.data c'.reader = .ok w ∧
      (event c'.demuxer w).1 = .error (.MoreDataNeeded n) ∧ n ≤ w.length := by
  have hi := hr.inv.1
  rw [← index_of_standsAt hi hp]
  constructor
  · intro h
    by_cases hf : ∀ f, found event dat f c.demuxer c.reader.index = none
    · exact .inl hf
    · obtain ⟨f, hf⟩ := Classical.not_forall.1 hf
      rcases asking_returns (header := header) hst dat f _ c hi (Nat.le_refl _) hf with ⟨fuel, x, c', g⟩ | g
      · rw [h fuel] at g; cases g
      · exact .inr g
  · rintro (h | ⟨c', w, n, h1, h2, h3, h4⟩) fuel
    · rcases asking_total (header := header) hst dat fuel c hi with g | ⟨x, c', g⟩
      · exact g
      · obtain ⟨_, _, ⟨g1, _⟩ | ⟨f, _, _, _, g1, _⟩⟩ := asking_sound hst dat fuel c c' x hi g
        · rw [hr.inv.2.2.1] at g1
          exact absurd hs g1
        · rw [h f] at g1; cases g1
    · exact h1.diverges (asking_stuck hst (h1.inv (windowDemuxer_api _ _) hi) h2 h3 h4) fuel

/-! ### the demuxer of the library's own tests -/

/-- What that demuxer makes of the bytes it sees (/repo/format/src/demuxer.rs:257-273). -/
def dummyEvent (d : Unit) (w : List U8) : Except Err (SeekFrom × Event) × Unit :=
  (if 2 > w.length then .error (.MoreDataNeeded (2 - w.length)) else
    if w.take 2 = [112, 49] then .ok (.current 3, .NewPacket Packet.new)
    else if w.take 2 = [101, 49] then .ok (.current 3, .MoreDataNeeded 0)
    else .error .InvalidData, d)

/-- What it makes of the headers (/repo/format/src/demuxer.rs:245-256). -/
def dummyHeader (d : Unit) (info : GlobalInfo) (w : List U8) : Except Err SeekFrom × Unit × GlobalInfo :=
  (if 9 > w.length then .error (.MoreDataNeeded (9 - w.length)) else .ok (.current 9), d, info)

theorem dummy_window : dummyDemuxer = windowDemuxer dummyHeader dummyEvent := rfl

theorem dummy_settled : Settled dummyEvent where
  stable := by
    intro d w u h
    have hw : 2 ≤ w.length := by
      by_cases hw : 2 > w.length
      · exact absurd (by simp only [dummyEvent, if_pos hw]) (h (2 - w.length))
      · omega
    have ht : (w ++ u).take 2 = w.take 2 := by rw [List.take_append_of_le_length hw]
    simp only [dummyEvent, ht]
    rw [if_neg (show ¬ 2 > (w ++ u).length by rw [List.length_append]; omega), if_neg (show ¬ 2 > w.length by omega)]
  asks := fun _ _ _ _ => rfl
  again := by
    intro d w sf n h
    simp only [dummyEvent] at h
    split at h
    · cases h
    · split at h
      · cases h
      · split at h
        · cases h; rfl
        · cases h
  forward := by
    intro d w k ev h
    simp only [dummyEvent] at h
    split at h
    · cases h
    · split at h
      · cases h; decide
      · split at h
        · cases h; decide
        · cases h

theorem dummy_asks {d : Unit} {w : List U8} {n : Nat} (h : (dummyEvent d w).1 = .error (.MoreDataNeeded n)) :
    w.length < 2 ∧ n = 2 - w.length := by
  simp only [dummyEvent] at h
  split at h
  · cases h; exact ⟨by assumption, rfl⟩
  · split at h
    · cases h
    · split at h <;> cases h

theorem dummy_found (dat : List U8) : ∀ (m p : Nat), dat.length - p ≤ m → ∃ x, found dummyEvent dat (m + 1) () p = some x := by
  intro m
  induction m using Nat.strongRecOn with
  | ind m ih =>
    intro p hm
    cases hs : stepAt dummyEvent dat () p with
    | done x d q => exact ⟨(x, d, q), by simp only [found, hs]⟩
    | goto d q =>
      have hq : q = p + 3 ∧ p < dat.length := by
        by_cases h1 : 2 > (dat.drop p).length
        · simp only [stepAt, dummyEvent, if_pos h1] at hs
          cases hs
        · have hlen : p < dat.length := by rw [List.length_drop] at h1; omega
          by_cases h2 : (dat.drop p).take 2 = [112, 49]
          · simp only [stepAt, dummyEvent, if_neg h1, if_pos h2, goal] at hs
            rw [if_pos (by omega)] at hs
            cases hs
          · by_cases h3 : (dat.drop p).take 2 = [101, 49]
            · simp only [stepAt, dummyEvent, if_neg h1, if_neg h2, if_pos h3, goal] at hs
              rw [if_pos (by omega)] at hs
              cases hs
              exact ⟨by omega, hlen⟩
            · simp only [stepAt, dummyEvent, if_neg h1, if_neg h2, if_neg h3] at hs
              cases hs
      obtain ⟨rfl, hp⟩ := hq
      cases m with
      | zero => omega
      | succ m =>
        obtain ⟨x, hx⟩ := ih m (by omega) (p + 3) (by omega)
        exact ⟨x, by simp only [found, hs]; exact hx⟩

/-- **C177** For the demuxer of the library's own tests, over any file and any reader that does not fail: `read_event` does
not return if and only if in the course of the call exactly one byte is buffered. -/
theorem c177_tests (dat : List U8) (cap : Nat) (script : Nat → Act) (hs : ∀ k, (script k).fail = none)
    (ops : List Acc.Op) (os : List Acc.Out) (c : Context Unit Acc.Acc)
    (hr : Acc.Reachable dat cap script ops os c.reader) :
    (∀ fuel, readEvent dummyDemuxer accBuffered fuel c = .error .fuel) ↔
    ∃ c' b, Rounds dummyDemuxer accBuffered c c' ∧ Acc.data c'.reader = .ok [b] := by
  have hx := c177_exact dummyHeader dummyEvent dummy_settled dat cap script hs ops os c hr c.reader.index hr.inv.1.standsAt
  rw [← dummy_window] at hx
  rw [hx]
  constructor
  · rintro (h | ⟨c', w, n, h1, h2, h3, h4⟩)
    · obtain ⟨x, hx⟩ := dummy_found dat _ c.reader.index (Nat.le_refl _)
      exact absurd (h _) (by rw [hx]; exact fun h => nomatch h)
    · obtain ⟨h5, rfl⟩ := dummy_asks h3
      match w, h2, h4, h5 with
      | [b], h2, _, _ => exact ⟨c', b, h1, h2⟩
  · rintro ⟨c', b, h1, h2⟩
    exact .inr ⟨c', [b], 1, h1, h2, rfl, Nat.le_refl _⟩

/-- A file of that format: nine bytes of header and three packets. -/
def threePackets : List U8 := [100, 117, 109, 109, 121, 32, 104, 101, 97, 112, 49, 32, 112, 49, 32, 112, 49, 32]

/-- Read by a reader that does not fail, through an `AccReader` of `cap` bytes, after the headers. -/
def headed (cap : Nat) : Context Unit Acc.Acc :=
  match readHeaders dummyDemuxer accBuffered 9 (Context.new () (Acc.withCapacity cap ⟨threePackets, 0, fun _ => ⟨none, 64⟩, 0⟩)) with
  | .ok (_, c) => c
  | .error _ => Context.new () (Acc.withCapacity cap ⟨[], 0, fun _ => ⟨none, 64⟩, 0⟩)

/-- **C177** Whether the call returns depends on the capacity: through four bytes that file gives its three packets and its
end; through thirteen bytes it gives one packet, and the next call does not return. -/
theorem c177_depends :
    (∃ a b d c', readEvents dummyDemuxer accBuffered 9 4 (headed 4) =
      .ok ([.ok (.NewPacket a), .ok (.NewPacket b), .ok (.NewPacket d), .ok .Eof], c')) ∧
    ∃ a c', readEvent dummyDemuxer accBuffered 9 (headed 13) = .ok (.ok (.NewPacket a), c') ∧
      ∀ fuel, readEvent dummyDemuxer accBuffered fuel c' = .error .fuel := by
  constructor
  · have h : (match readEvents dummyDemuxer accBuffered 9 4 (headed 4) with
        | .ok ([.ok (.NewPacket _), .ok (.NewPacket _), .ok (.NewPacket _), .ok .Eof], _) => true
        | _ => false) = true := by decide +kernel
    split at h
    · rename_i a b d c' e
      exact ⟨a, b, d, c', e⟩
    · cases h
  · have h : (match readEvent dummyDemuxer accBuffered 9 (headed 13) with
        | .ok (.ok (.NewPacket _), c') => (match Acc.data c'.reader with
          | .ok [_] => decide (c'.reader.inner.data = threePackets ∧ c'.reader.pos ≤ c'.reader.end ∧
              c'.reader.end ≤ c'.reader.buf.length ∧ c'.reader.inner.pos = c'.reader.index + (c'.reader.end - c'.reader.pos) ∧
              Acc.win c'.reader = (threePackets.drop c'.reader.index).take (c'.reader.end - c'.reader.pos))
          | _ => false)
        | _ => false) = true := by decide +kernel
    split at h
    · rename_i a c' e
      refine ⟨a, c', e, ?_⟩
      split at h
      · rename_i b hb
        obtain ⟨h1, h2, h3, h4, h5⟩ := of_decide_eq_true h
        exact asking_stuck (header := dummyHeader) dummy_settled ⟨h1, h2, h3, h4, h5⟩ hb (n := 1) rfl (Nat.le_refl _)
      · cases h
    · cases h

/-- The theorems are not empty: at the start of that file, through an `AccReader` of any capacity. -/
example (cap fuel : Nat) (x : Except Err Event) (c' : Context Unit Acc.Acc)
    (h : readEvent dummyDemuxer accBuffered fuel
      (Context.new () (Acc.withCapacity cap ⟨threePackets.drop 9, 0, fun _ => ⟨none, 64⟩, 0⟩)) = .ok (x, c')) :
    ∃ a, x = .ok (.NewPacket a) ∧ Acc.streamPosition c'.reader = .ok (.ok 3, c'.reader) := by
  rw [dummy_window] at h
  have hr : Acc.Reachable (threePackets.drop 9) cap (fun _ => ⟨none, 64⟩) [] []
      (Acc.withCapacity cap ⟨threePackets.drop 9, 0, fun _ => ⟨none, 64⟩, 0⟩) := ⟨_, 0, rfl, rfl, rfl, rfl⟩
  rcases c177_sound dummyHeader dummyEvent dummy_settled _ cap _ [] [] _ hr 0 hr.inv.1.standsAt fuel x c' h with
    ⟨_, k, hk⟩ | ⟨f, x0, d', q, h1, h2, _, h4, _⟩
  · exact absurd rfl hk
  · cases f with
    | zero => cases h1
    | succ f =>
      have hs : stepAt dummyEvent (threePackets.drop 9) () 0 = .done (.ok (.NewPacket Packet.new)) () 3 := rfl
      simp only [found, Context.new, hs] at h1
      cases h1
      exact ⟨_, h2, h4⟩

/-! ### an `AccReader` of the default capacity -/

/-- `m` packets of that format -/
def packets (m : Nat) : List U8 := (List.replicate m [112, 49, 32]).flatten

theorem packets_succ (m : Nat) : packets (m + 1) = 112 :: 49 :: 32 :: packets m := by
  simp [packets, List.replicate_succ]

theorem packets_length (m : Nat) : (packets m).length = 3 * m := by
  induction m with
  | zero => rfl
  | succ m ih => rw [packets_succ]; simp only [List.length_cons, ih]; omega

/-- The first bytes, read at once. -/
theorem fill_fresh (dat : List U8) (cap : Nat) (script : Nat → Act) (h0 : 0 < cap) (hc : cap ≤ dat.length)
    (h1 : (script 0).fail = none) (h2 : cap ≤ (script 0).len) :
    Acc.fillBuf (Acc.withCapacity cap ⟨dat, 0, script, 0⟩) =
      .ok (.ok (dat.take cap), ⟨⟨dat, cap, script, 1⟩, dat.take cap, 0, cap, 0⟩) := by
  have hl : (dat.take cap).length = cap := by rw [List.length_take]; omega
  have hm : min cap ((script 0).len + 1) = cap := by omega
  have hread : Source.read ⟨dat, 0, script, 0⟩ cap = (.ok (dat.take cap), ⟨dat, cap, script, 1⟩) := by
    simp only [Source.read, h1, List.drop_zero, hm, hl, Nat.zero_add]
  have hbuf : List.drop cap (List.replicate cap (0 : U8)) = [] := by simp
  have hd : Acc.data ⟨⟨dat, cap, script, 1⟩, dat.take cap, 0, cap, 0⟩ = .ok (dat.take cap) := by
    rw [Acc.data_ok (dat := dat) ⟨rfl, Nat.zero_le _, by rw [hl]; exact Nat.le_refl _, by simp, by
      simp [Acc.win, List.take_take]⟩]
    simp [Acc.win, List.take_take]
  unfold Acc.fillBuf Acc.withCapacity
  simp only [List.length_replicate]
  rw [if_pos (.inr (by omega))]
  simp only [Acc.resetBufferPosition, usub, Nat.le_refl, if_true, Nat.sub_self, ok_bind, pure_eq_ok,
    Nat.lt_irrefl, if_false, sliceFrom_ok (show 0 ≤ (List.replicate cap (0 : U8)).length from Nat.zero_le _), List.drop_zero,
    List.length_replicate, hread, hl, Nat.zero_add, gt_iff_lt, List.take_zero, List.nil_append, hbuf, List.append_nil, hd]

/-- One packet that is buffered. -/
theorem dummy_packet {dat : List U8} {c : Context Unit Acc.Acc} (hi : Acc.Inv dat c.reader) {rest : List U8}
    (hw : Acc.win c.reader = 112 :: 49 :: 32 :: rest) (a : Nat) :
    ∃ r, readEvent dummyDemuxer accBuffered (a + 1) c =
        .ok (.ok (.NewPacket (setTimebase c.info.streams Packet.new)), ⟨c.demuxer, r, c.info, c.user_private⟩) ∧
      Acc.Inv dat r ∧ Acc.win r = rest := by
  have hlen := Acc.win_length hi
  rw [hw] at hlen
  simp only [List.length_cons] at hlen
  have hpe := hi.pe
  have hcall : dummyDemuxer.readEvent c.demuxer c.reader = .ok (.ok (.current 3, .NewPacket Packet.new), c.demuxer, c.reader) := by
    rw [dummy_window]
    simp only [windowDemuxer, Acc.data_ok hi, ok_bind, pure_eq_ok, dummyEvent, hw]
    rfl
  have hseek : accBuffered.seek c.reader (.current 3) =
      .ok (.ok (c.reader.index + 3), { c.reader with index := c.reader.index + 3, pos := c.reader.pos + 3 }) := by
    change Acc.seek c.reader (.current 3) = _
    simp only [Acc.seek, usub_ok hpe, ok_bind]
    rw [if_pos (by omega), if_pos (by omega)]
    rfl
  obtain ⟨x, r, s1, s2⟩ := Acc.seek_spec hi (.current 3)
  have hinv := s2.inv
  have : Acc.seek c.reader (.current 3) = _ := hseek
  rw [this] at s1
  cases s1
  refine ⟨_, by simp only [readEvent, readEventInternal, hcall, ok_bind, hseek], hinv, ?_⟩
  have hwin : Acc.win { c.reader with index := c.reader.index + 3, pos := c.reader.pos + 3 } = (Acc.win c.reader).drop 3 := by
    simp only [Acc.win, List.drop_take, List.drop_drop]
    congr 1
  rw [hwin, hw]
  rfl

theorem dummy_packets {dat : List U8} (a : Nat) (k : Nat) : ∀ (m : Nat) (c : Context Unit Acc.Acc), Acc.Inv dat c.reader → k < m →
    c.info.streams = [] → Acc.win c.reader = (packets m).take (1 + 3 * k) →
    ∃ c', readEvents dummyDemuxer accBuffered (a + 1) k c = .ok (List.replicate k (.ok (.NewPacket Packet.new)), c') ∧
      Acc.Inv dat c'.reader ∧ Acc.win c'.reader = [112] := by
  induction k with
  | zero =>
    intro m c hi hm _ hw
    obtain ⟨m, rfl⟩ : ∃ n, m = n + 1 := ⟨m - 1, by omega⟩
    refine ⟨c, rfl, hi, ?_⟩
    rw [hw, packets_succ]
    rfl
  | succ k ih =>
    intro m c hi hm hst hw
    obtain ⟨m, rfl⟩ : ∃ n, m = n + 1 := ⟨m - 1, by omega⟩
    rw [packets_succ, show 1 + 3 * (k + 1) = (1 + 3 * k) + 1 + 1 + 1 by omega, List.take_succ_cons, List.take_succ_cons,
      List.take_succ_cons] at hw
    obtain ⟨r, h1, h2, h3⟩ := dummy_packet hi hw a
    obtain ⟨c', g1, g2, g3⟩ := ih m ⟨c.demuxer, r, c.info, c.user_private⟩ h2 (by omega) hst h3
    refine ⟨c', ?_, g2, g3⟩
    have hp : setTimebase c.info.streams Packet.new = Packet.new := by rw [hst]; rfl
    simp only [readEvents, h1, ok_bind, g1, pure_eq_ok, List.replicate_succ, hp]

/-- **C177** A file of that format with `m` packets, through an `AccReader` of `10 + 3 * k` bytes and from a reader that gives
what it is asked for (a `Cursor`, a file): the headers and `k` packets are read, and if the file has more than `k` packets
the next call of `read_event` does not return. -/
theorem c177_hangs (hdr : List U8) (hh : hdr.length = 9) (k m : Nat) (hm : k < m) (script : Nat → Act)
    (hs : ∀ i, (script i).fail = none ∧ 10 + 3 * k ≤ (script i).len) (a : Nat) :
    ∃ c c', readHeaders dummyDemuxer accBuffered (a + 1)
        (Context.new () (Acc.withCapacity (10 + 3 * k) ⟨hdr ++ packets m, 0, script, 0⟩)) = .ok (.ok (), c) ∧
      readEvents dummyDemuxer accBuffered (a + 1) k c = .ok (List.replicate k (.ok (.NewPacket Packet.new)), c') ∧
      ∀ fuel, readEvent dummyDemuxer accBuffered fuel c' = .error .fuel := by
  have hlen : (hdr ++ packets m).length = 9 + 3 * m := by rw [List.length_append, packets_length, hh]
  have hl : ((hdr ++ packets m).take (10 + 3 * k)).length = 10 + 3 * k := by rw [List.length_take]; omega
  have hf := fill_fresh (hdr ++ packets m) (10 + 3 * k) script (by omega) (by omega) (hs 0).1 (hs 0).2
  have hi : Acc.Inv (hdr ++ packets m) ⟨⟨hdr ++ packets m, 10 + 3 * k, script, 1⟩, (hdr ++ packets m).take (10 + 3 * k), 0, 10 + 3 * k, 0⟩ :=
    ⟨rfl, Nat.zero_le _, by rw [hl]; exact Nat.le_refl _, by simp, by simp [Acc.win, List.take_take]⟩
  have hcall : ∀ info, dummyDemuxer.readHeaders () ⟨⟨hdr ++ packets m, 10 + 3 * k, script, 1⟩,
      (hdr ++ packets m).take (10 + 3 * k), 0, 10 + 3 * k, 0⟩ info =
      .ok (.ok (.current 9), (), ⟨⟨hdr ++ packets m, 10 + 3 * k, script, 1⟩, (hdr ++ packets m).take (10 + 3 * k), 0, 10 + 3 * k, 0⟩,
        info) := by
    intro info
    rw [dummy_window]
    simp only [windowDemuxer, Acc.data_ok hi, ok_bind, pure_eq_ok, dummyHeader]
    rw [if_neg (by rw [Acc.win_length hi]; simp only; omega)]
  have hseek : accBuffered.seek ⟨⟨hdr ++ packets m, 10 + 3 * k, script, 1⟩, (hdr ++ packets m).take (10 + 3 * k), 0, 10 + 3 * k, 0⟩ (.current 9) =
      .ok (.ok 9, ⟨⟨hdr ++ packets m, 10 + 3 * k, script, 1⟩, (hdr ++ packets m).take (10 + 3 * k), 9, 10 + 3 * k, 9⟩) := by
    change Acc.seek _ (.current 9) = _
    simp only [Acc.seek, usub_ok (Nat.zero_le _), ok_bind]
    rw [if_pos (by omega), if_pos (by omega)]
    rfl
  have hi2 : Acc.Inv (hdr ++ packets m) ⟨⟨hdr ++ packets m, 10 + 3 * k, script, 1⟩, (hdr ++ packets m).take (10 + 3 * k), 9, 10 + 3 * k, 9⟩ := by
    refine ⟨rfl, by simp only; omega, by rw [hl]; exact Nat.le_refl _, by simp only; omega, ?_⟩
    simp only [Acc.win, List.take_take, Nat.min_self, List.drop_take]
  have hw : Acc.win ⟨⟨hdr ++ packets m, 10 + 3 * k, script, 1⟩, (hdr ++ packets m).take (10 + 3 * k), 9, 10 + 3 * k, 9⟩ =
      (packets m).take (1 + 3 * k) := by
    rw [hi2.win]
    simp only
    rw [List.drop_append_of_le_length (by omega), List.drop_of_length_le (by omega), List.nil_append]
    congr 1
    omega
  obtain ⟨c', g1, g2, g3⟩ := dummy_packets a k m ⟨(), _, ⟨none, none, []⟩, none⟩ hi2 hm rfl hw
  refine ⟨_, c', readHeaders_last a (.accepted hf (hcall _) hseek), g1, ?_⟩
  exact asking_stuck (header := dummyHeader) dummy_settled g2 (Acc.data_ok g2) (n := 1) (by rw [g3]; rfl) (by rw [g3]; exact Nat.le_refl _)

/-- **C177** With `AccReader::new`: 1362 packets, and then no more. -/
theorem c177_default (hdr : List U8) (hh : hdr.length = 9) (m : Nat) (hm : 1362 < m) :
    ∃ c c', readHeaders dummyDemuxer accBuffered 1
        (Context.new () (Acc.new ⟨hdr ++ packets m, 0, fun _ => ⟨none, 4096⟩, 0⟩)) = .ok (.ok (), c) ∧
      readEvents dummyDemuxer accBuffered 1 1362 c = .ok (List.replicate 1362 (.ok (.NewPacket Packet.new)), c') ∧
      ∀ fuel, readEvent dummyDemuxer accBuffered fuel c' = .error .fuel :=
  c177_hangs hdr hh 1362 m hm _ (fun _ => ⟨rfl, Nat.le_refl _⟩) 0

end Verif.Demux
