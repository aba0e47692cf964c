import Verif.Demux.Asking
import Verif.Demux.Panics

/-!
# Property C178: whatever a demuxer asks for its headers, read_headers returns what the file says

C36 says when `read_headers` returns for demuxers that need a fixed number of bytes. Here the headers are of any shape: a
demuxer may find out from the first bytes how many more there are, ask for any amounts, or find that the data is invalid.
-/

namespace Verif.Demux
open Verif Verif.Io Verif.Frame Verif.Stream Verif.Packet

variable {D : Type}

/-- What a demuxer says of the headers it sees: while it asks nothing changes, and when it has answered, more bytes would not
change the answer. It goes back only with absolute positions. -/
structure SettledHeader (header : D → GlobalInfo → List U8 → Except Err SeekFrom × D × GlobalInfo) : Prop where
  stable : ∀ d i w u, (∀ n, (header d i w).1 ≠ .error (.MoreDataNeeded n)) → header d i (w ++ u) = header d i w
  asks : ∀ d i w n, (header d i w).1 = .error (.MoreDataNeeded n) → (header d i w).2 = (d, i)
  forward : ∀ d i w k, (header d i w).1 = .ok (.current k) → 0 ≤ k

/-! ### proofs -/

variable {header : D → GlobalInfo → List U8 → Except Err SeekFrom × D × GlobalInfo}
  {event : D → List U8 → Except Err (SeekFrom × Event) × D}

/-- One round of `read_headers`; `r` is the reader when the buffer has been filled. -/
inductive HKind (header : D → GlobalInfo → List U8 → Except Err SeekFrom × D × GlobalInfo)
    (event : D → List U8 → Except Err (SeekFrom × Event) × D) (dat : List U8) (c : Context D Acc.Acc) (r : Acc.Acc)
    (c' : Context D Acc.Acc) : Prop
  | io {e} : (¬ ∀ k, (c.reader.inner.script k).fail = none) →
      (∀ a, readHeaders (windowDemuxer header event) accBuffered (a + 1) c = .ok (.error (.Io e), c')) →
      HKind header event dat c r c'
  | error {e d' i'} : header c.demuxer c.info (dat.drop c.reader.index) = (.error e, d', i') → (∀ n, e ≠ .MoreDataNeeded n) →
      c'.demuxer = d' → c'.info = i' → c'.reader.index = c.reader.index →
      (∀ a, readHeaders (windowDemuxer header event) accBuffered (a + 1) c = .ok (.error e, c')) → HKind header event dat c r c'
  | accepted {sf d' i'} : header c.demuxer c.info (dat.drop c.reader.index) = (.ok sf, d', i') →
      c'.demuxer = d' → c'.info = i' →
      ((∀ k, (c.reader.inner.script k).fail = none) →
        c'.reader.index = (goal dat.length c.reader.index sf).getD c.reader.index) →
      (∀ a, readHeaders (windowDemuxer header event) accBuffered (a + 1) c = .ok (.ok (), c')) → HKind header event dat c r c'
  | asks {n} : (header c.demuxer c.info (Acc.win r)).1 = .error (.MoreDataNeeded n) →
      Acc.fillBuf c.reader = .ok (.ok (Acc.win r), r) → Acc.FillSpec dat c.reader r (.ok (Acc.win r)) →
      c' = ⟨c.demuxer, Acc.grow r n, c.info, c.user_private⟩ →
      HRound (windowDemuxer header event) accBuffered c c' → HKind header event dat c r c'

theorem heading_round (hst : SettledHeader header) (dat : List U8) (c : Context D Acc.Acc) (hi : Acc.Inv dat c.reader) :
    ∃ r c', Acc.Inv dat r ∧ Acc.Inv dat c'.reader ∧ c'.reader.inner.script = c.reader.inner.script ∧
      HKind header event dat c r c' := by
  obtain ⟨x, r, f1, f⟩ := Acc.fillBuf_spec hi
  cases x with
  | error e =>
    have hf := (f.error e rfl).2.1
    refine ⟨r, ⟨c.demuxer, r, c.info, c.user_private⟩, f.inv, f.inv, f.script, .io (e := e) (fun h => by rw [h] at hf; cases hf) fun a => ?_⟩
    exact readHeaders_last a (.readError f1)
  | ok l =>
    obtain ⟨rfl, -, -⟩ := f.shown l rfl
    have hcall : (windowDemuxer header event).readHeaders c.demuxer r c.info =
        .ok ((header c.demuxer c.info (Acc.win r)).1, (header c.demuxer c.info (Acc.win r)).2.1, r,
          (header c.demuxer c.info (Acc.win r)).2.2) := by
      simp only [windowDemuxer, Acc.data_ok f.inv, ok_bind, pure_eq_ok]
    obtain ⟨u, hu⟩ := win_prefix f.inv
    rw [f.index] at hu
    have hsame : (∀ n, (header c.demuxer c.info (Acc.win r)).1 ≠ .error (.MoreDataNeeded n)) →
        header c.demuxer c.info (dat.drop c.reader.index) = header c.demuxer c.info (Acc.win r) := by
      intro h
      rw [hu, hst.stable _ _ _ _ h]
    cases hp : header c.demuxer c.info (Acc.win r) with
    | mk y di =>
    obtain ⟨d', i'⟩ := di
    rw [hp] at hcall hsame
    simp only at hcall
    cases y with
    | ok sf =>
      have hall := hsame (fun n h => nomatch h)
      obtain ⟨z, r', s1, s2, s3, s4⟩ := seek_any f.inv sf (fun k hk => hst.forward c.demuxer c.info (Acc.win r) k (by rw [hp, hk]))
      refine ⟨r, ⟨d', r', i', c.user_private⟩, f.inv, s2, s3.trans f.script, .accepted hall rfl rfl ?_
        fun a => readHeaders_last a (.accepted f1 hcall s1)⟩
      intro hs
      rw [f.index] at s4
      rcases s4 with ⟨q, hg, _, hq⟩ | ⟨hg, _, hq⟩ | ⟨hf, _⟩
      · rw [hg]; exact hq
      · rw [hg]; exact hq
      · rw [f.script] at hf; exact absurd hs hf
    | error e =>
      by_cases hn : ∃ n, e = .MoreDataNeeded n
      · obtain ⟨n, rfl⟩ := hn
        have h2 := hst.asks c.demuxer c.info (Acc.win r) n (by rw [hp])
        rw [hp] at h2
        cases h2
        refine ⟨r, ⟨c.demuxer, Acc.grow r n, c.info, c.user_private⟩, f.inv, (Acc.grow_inv f.inv n).1, f.script,
          .asks (n := n) (by rw [hp]) f1 f rfl (.mk f1 hcall rfl)⟩
      · have hn' : ∀ n, e ≠ .MoreDataNeeded n := fun n h => hn ⟨n, h⟩
        have hall := hsame (fun n h => by cases h; exact hn' n rfl)
        exact ⟨r, ⟨d', r, i', c.user_private⟩, f.inv, f.inv, f.script, .error hall hn' rfl rfl f.index
          fun a => readHeaders_last a (.error f1 hcall hn')⟩

theorem heading_sound (hst : SettledHeader header) (dat : List U8) (fuel : Nat) : ∀ (c c' : Context D Acc.Acc) (x : Except Err Unit),
    Acc.Inv dat c.reader → readHeaders (windowDemuxer header event) accBuffered fuel c = .ok (x, c') →
    Acc.Inv dat c'.reader ∧ c'.reader.inner.script = c.reader.inner.script ∧
    (((¬ ∀ k, (c.reader.inner.script k).fail = none) ∧ ∃ e, x = .error (.Io e)) ∨
    ∃ y, header c.demuxer c.info (dat.drop c.reader.index) = (y, c'.demuxer, c'.info) ∧ x = y.map (fun _ => ()) ∧
      (∀ n, y ≠ .error (.MoreDataNeeded n)) ∧
      ((∀ k, (c.reader.inner.script k).fail = none) → c'.reader.index =
        match y with
        | .error _ => c.reader.index
        | .ok sf => (goal dat.length c.reader.index sf).getD c.reader.index)) := by
  induction fuel with
  | zero => intro c c' x _ h; cases h
  | succ fuel ih =>
    intro c c' x hi h
    obtain ⟨r, c1, h0, h1, h2, h3⟩ := heading_round (header := header) (event := event) hst dat c hi
    cases h3 with
    | io e1 e2 =>
      rw [e2] at h
      cases h
      exact ⟨h1, h2, .inl ⟨e1, _, rfl⟩⟩
    | error e1 e2 e3 e4 e5 e6 =>
      rw [e6] at h
      cases h
      exact ⟨h1, h2, .inr ⟨.error _, by rw [e1, e3, e4], rfl, (fun n h => by cases h; exact e2 n rfl), fun _ => e5⟩⟩
    | accepted e1 e3 e4 e5 e6 =>
      rw [e6] at h
      cases h
      exact ⟨h1, h2, .inr ⟨.ok _, by rw [e1, e3, e4], rfl, (fun n h => nomatch h), e5⟩⟩
    | @asks n e1 e2 e3 e4 e5 =>
      rw [readHeaders_round fuel e5] at h
      obtain ⟨g1, g0, g2⟩ := ih c1 c' x h1 h
      refine ⟨g1, g0.trans h2, ?_⟩
      rw [h2] at g2
      subst e4
      have : (Acc.grow r n).index = c.reader.index := e3.index
      simp only [this] at g2
      exact g2

theorem heading_total (hst : SettledHeader header) (dat : List U8) (fuel : Nat) : ∀ (c : Context D Acc.Acc), Acc.Inv dat c.reader →
    readHeaders (windowDemuxer header event) accBuffered fuel c = .error .fuel ∨
    ∃ x c', readHeaders (windowDemuxer header event) accBuffered fuel c = .ok (x, c') := by
  induction fuel with
  | zero => exact fun c _ => .inl rfl
  | succ fuel ih =>
    intro c hi
    obtain ⟨r, c1, h0, h1, h2, h3⟩ := heading_round (header := header) (event := event) hst dat c hi
    cases h3 with
    | io e1 e2 => exact .inr ⟨_, _, e2 fuel⟩
    | error e1 e2 e3 e4 e5 e6 => exact .inr ⟨_, _, e6 fuel⟩
    | accepted e1 e3 e4 e5 e6 => exact .inr ⟨_, _, e6 fuel⟩
    | asks e1 e2 e3 e4 e5 => rw [readHeaders_round fuel e5]; exact ih c1 h1

/-- If the rest of the file is enough, the call returns within as many rounds as there are bytes that are not shown yet, or
gets stuck. -/
theorem heading_returns (hst : SettledHeader header) (dat : List U8) (fuel : Nat) : ∀ (c : Context D Acc.Acc),
    Acc.Inv dat c.reader → (∀ k, (c.reader.inner.script k).fail = none) → (∀ n, (header c.demuxer c.info (dat.drop c.reader.index)).1 ≠ .error (.MoreDataNeeded n)) →
    (∀ x r, Acc.fillBuf c.reader = .ok (x, r) → (dat.drop c.reader.index).length < fuel + (Acc.win r).length) →
    (∃ x c', readHeaders (windowDemuxer header event) accBuffered (fuel + 1) c = .ok (x, c')) ∨
    ∃ c' w r, HRounds (windowDemuxer header event) accBuffered c c' ∧ Acc.fillBuf c'.reader = .ok (.ok w, r) ∧
      w.length = r.buf.length ∧ (header c'.demuxer c'.info w).1 = .error (.MoreDataNeeded 0) := by
  induction fuel with
  | zero =>
    intro c hi hs hn hlt
    obtain ⟨x, r, f1, f⟩ := Acc.fillBuf_spec hi
    have h1 := hlt x r f1
    have h2 := win_le_rest f.inv
    rw [f.index] at h2
    omega
  | succ fuel ih =>
    intro c hi hs hn hlt
    obtain ⟨r, c1, h0, h1, h2, h3⟩ := heading_round (header := header) (event := event) hst dat c hi
    cases h3 with
    | io e1 e2 => exact .inl ⟨_, _, e2 _⟩
    | error e1 e2 e3 e4 e5 e6 => exact .inl ⟨_, _, e6 _⟩
    | accepted e1 e3 e4 e5 e6 => exact .inl ⟨_, _, e6 _⟩
    | @asks n e1 e2 e3 e4 e5 =>
      subst e4
      have hlt1 := hlt _ _ e2
      obtain ⟨u, hu⟩ := win_prefix h0
      rw [e3.index] at hu
      have hne : u ≠ [] := by
        rintro rfl
        rw [List.append_nil] at hu
        rw [hu] at hn
        exact hn n e1
      have hlen := congrArg List.length hu
      rw [List.length_append, List.length_drop] at hlen
      have hupos := List.length_pos_iff.2 hne
      by_cases hfull : n = 0 ∧ (Acc.win r).length = r.buf.length
      · obtain ⟨rfl, hfull⟩ := hfull
        exact .inr ⟨c, _, r, .refl, e2, hfull, e1⟩
      · have hidx : (Acc.grow r n).index = c.reader.index := e3.index
        have hnext : ∀ x r', Acc.fillBuf (Acc.grow r n) = .ok (x, r') → (dat.drop c.reader.index).length < fuel + (Acc.win r').length := by
          intro x r' hx
          obtain ⟨g1, g2, _⟩ := fill_grown h0 hx
          cases x with
          | error e =>
            have hf := (g1.error e rfl).2.1
            rw [show (Acc.grow r n).inner.script = c.reader.inner.script from e3.script, hs] at hf
            cases hf
          | ok l =>
            obtain ⟨t1, t2, t3⟩ := g1.shown l rfl
            rw [g2] at t2 t3
            have hle := t2.length_le
            have hroom : (Acc.win r).length < (Acc.grow r n).buf.length := by
              have := h0.eb
              have hw := Acc.win_length h0
              simp only [Acc.grow, List.length_append, List.length_replicate]
              omega
            have : (Acc.win r).length < l.length := by
              rcases Nat.lt_or_ge (Acc.win r).length l.length with h | h
              · exact h
              · have := t3 (t2.eq_of_length_le h).symm hroom
                rw [hidx] at this
                omega
            rw [t1] at this
            omega
        rcases ih ⟨c.demuxer, Acc.grow r n, c.info, c.user_private⟩ h1 (by rw [h2]; exact hs)
            (by simpa only [hidx] using hn) (by simpa only [hidx] using hnext) with
          ⟨x, c', g⟩ | ⟨c', w, r', g1, g2⟩
        · exact .inl ⟨x, c', by rw [readHeaders_round _ e5]; exact g⟩
        · exact .inr ⟨c', w, r', .step e5 g1, g2⟩

/-- A full buffer that is shown again and again. -/
theorem heading_stuck (hst : SettledHeader header) {dat : List U8} {c : Context D Acc.Acc} {w : List U8} {r : Acc.Acc}
    (hi : Acc.Inv dat c.reader) (h1 : Acc.fillBuf c.reader = .ok (.ok w, r)) (h2 : w.length = r.buf.length)
    (h3 : (header c.demuxer c.info w).1 = .error (.MoreDataNeeded 0)) :
    ∀ fuel, readHeaders (windowDemuxer header event) accBuffered fuel c = .error .fuel := by
  obtain ⟨x, r', f1, f⟩ := Acc.fillBuf_spec hi
  rw [h1] at f1
  cases f1
  obtain ⟨rfl, -, -⟩ := f.shown w rfl
  have hw := Acc.win_length f.inv
  have hpe := f.inv.pe
  have heb := f.inv.eb
  have hg : Acc.grow r 0 = r := by
    simp only [Acc.grow, List.replicate_zero, List.append_nil]
  have hround : ∀ c0 : Context D Acc.Acc, c0.demuxer = c.demuxer → c0.info = c.info → c0.user_private = c.user_private →
      Acc.fillBuf c0.reader = .ok (.ok (Acc.win r), r) →
      HRound (windowDemuxer header event) accBuffered c0 ⟨c.demuxer, r, c.info, c.user_private⟩ := by
    intro c0 a1 a2 a3 a4
    have hcall : (windowDemuxer header event).readHeaders c0.demuxer r c0.info =
        .ok (.error (.MoreDataNeeded 0), c.demuxer, r, c.info) := by
      simp only [windowDemuxer, Acc.data_ok f.inv, ok_bind, pure_eq_ok, a1, a2, h3, hst.asks _ _ _ _ h3]
    rw [← a3]
    exact .mk (g := r) a4 hcall (by change Except.ok (Acc.grow r 0) = _; rw [hg])
  have hagain : Acc.fillBuf r = .ok (.ok (Acc.win r), r) := by
    unfold Acc.fillBuf
    rw [if_neg (by omega), Acc.data_ok f.inv]
    rfl
  have hloop : ∀ fuel, readHeaders (windowDemuxer header event) accBuffered fuel
      (⟨c.demuxer, r, c.info, c.user_private⟩ : Context D Acc.Acc) = .error .fuel := by
    intro fuel
    induction fuel with
    | zero => rfl
    | succ fuel ih => rw [readHeaders_round fuel (hround ⟨c.demuxer, r, c.info, c.user_private⟩ rfl rfl rfl hagain)]; exact ih
  intro fuel
  cases fuel with
  | zero => rfl
  | succ fuel => rw [readHeaders_round fuel (hround c rfl rfl rfl h1)]; exact hloop fuel

theorem heading_diverges {R : Type} {dm : Demuxer D R} {bf : Buffered R} {c c' : Context D R} (h : HRounds dm bf c c')
    (hd : ∀ fuel, readHeaders dm bf fuel c' = .error .fuel) : ∀ fuel, readHeaders dm bf fuel c = .error .fuel := by
  induction h with
  | refl => exact hd
  | step h _ ih =>
    intro fuel
    cases fuel with
    | zero => rfl
    | succ fuel => rw [readHeaders_round fuel h]; exact ih hd fuel

/-! ### C178 -/

/-- **C178** Whatever the demuxer asks for, whatever the capacity of the `AccReader` and however its reader cuts the bytes up
or fails: if `read_headers` returns, then it returns what the demuxer makes of the whole rest of the file, with the state and
the information it makes of it, or an I/O error, if the reader fails. If the reader does not fail, it stands then where the
demuxer goes on, or where it stood if that is before the beginning of the file (which is not reported, C68). -/
theorem c178_sound (header : D → GlobalInfo → List U8 → Except Err SeekFrom × D × GlobalInfo)
    (event : D → List U8 → Except Err (SeekFrom × Event) × D) (hst : SettledHeader header)
    (dat : List U8) (cap : Nat) (script : Nat → Act) (ops : List Acc.Op) (os : List Acc.Out) (c : Context D Acc.Acc)
    (hr : Acc.Reachable dat cap script ops os c.reader) (p : Nat) (hp : Acc.StandsAt dat c.reader p)
    (fuel : Nat) (x : Except Err Unit) (c' : Context D Acc.Acc)
    (h : readHeaders (windowDemuxer header event) accBuffered fuel c = .ok (x, c')) :
    (∃ e, x = .error (.Io e)) ∧ (∃ k, (script k).fail ≠ none) ∨
    ∃ y, header c.demuxer c.info (dat.drop p) = (y, c'.demuxer, c'.info) ∧ x = y.map (fun _ => ()) ∧
      (∀ n, y ≠ .error (.MoreDataNeeded n)) ∧
      ((∀ k, (script k).fail = none) → Acc.streamPosition c'.reader = .ok (.ok (
        match y with
        | .error _ => p
        | .ok sf => (goal dat.length p sf).getD p), c'.reader)) := by
  have hi := hr.inv.1
  obtain ⟨h1, _, h3⟩ := heading_sound hst dat fuel c c' x hi h
  rw [hr.inv.2.2.1, index_of_standsAt hi hp] at h3
  rcases h3 with ⟨h3, h4⟩ | ⟨y, g1, g2, g3, g4⟩
  · exact .inl ⟨h4, Classical.not_forall.1 h3⟩
  · exact .inr ⟨y, g1, g2, g3, fun hs => by rw [h1.position, g4 hs]⟩

/-- **C178** Over a reader that does not fail `read_headers` does not return in two cases only: the rest of the file is not
enough for the demuxer, or the demuxer asks for no bytes (`MoreDataNeeded(0)`) while the buffer is full. -/
theorem c178_exact (header : D → GlobalInfo → List U8 → Except Err SeekFrom × D × GlobalInfo)
    (event : D → List U8 → Except Err (SeekFrom × Event) × D) (hst : SettledHeader header)
    (dat : List U8) (cap : Nat) (script : Nat → Act) (hs : ∀ k, (script k).fail = none)
    (ops : List Acc.Op) (os : List Acc.Out) (c : Context D Acc.Acc)
    (hr : Acc.Reachable dat cap script ops os c.reader) (p : Nat) (hp : Acc.StandsAt dat c.reader p) :
    (∀ fuel, readHeaders (windowDemuxer header event) accBuffered fuel c = .error .fuel) ↔
    (∃ n, (header c.demuxer c.info (dat.drop p)).1 = .error (.MoreDataNeeded n)) ∨
    ∃ c' w r, HRounds (windowDemuxer header event) accBuffered c c' ∧ Acc.fillBuf c'.reader = .ok (.ok w, r) ∧
      w.length = r.buf.length ∧ (header c'.demuxer c'.info w).1 = .error (.MoreDataNeeded 0) := by
  have hi := hr.inv.1
  have hidx := index_of_standsAt hi hp
  constructor
  · intro h
    by_cases hn : ∃ n, (header c.demuxer c.info (dat.drop p)).1 = .error (.MoreDataNeeded n)
    · exact .inl hn
    · rcases heading_returns (header := header) (event := event) hst dat ((dat.drop p).length + 1) c hi
        (by rw [hr.inv.2.2.1]; exact hs) (by rw [hidx]; exact fun n h => hn ⟨n, h⟩)
        (by intro x r _; rw [hidx]; omega) with ⟨x, c', g⟩ | g
      · rw [h] at g; cases g
      · exact .inr g
  · rintro (⟨n, hn⟩ | ⟨c', w, r, h1, h2, h3, h4⟩) fuel
    · rcases heading_total (header := header) (event := event) hst dat fuel c hi with g | ⟨x, c', g⟩
      · exact g
      · obtain ⟨_, _, ⟨g1, _⟩ | ⟨y, g1, _, g3, _⟩⟩ := heading_sound hst dat fuel c c' x hi g
        · rw [hr.inv.2.2.1] at g1
          exact absurd hs g1
        · rw [hidx] at g1
          rw [g1] at hn
          exact absurd hn (g3 n)
    · exact heading_diverges h1 (heading_stuck hst (h1.inv (windowDemuxer_api _ _) hi) h2 h3 h4) fuel

/-- **C178** So a demuxer that asks for at least one byte gets its headers if and only if the file has them, and it is called
at most once for every byte of the rest of the file, and twice more. -/
theorem c178_returns (header : D → GlobalInfo → List U8 → Except Err SeekFrom × D × GlobalInfo)
    (event : D → List U8 → Except Err (SeekFrom × Event) × D) (hst : SettledHeader header)
    (hpos : ∀ d i w, (header d i w).1 ≠ .error (.MoreDataNeeded 0))
    (dat : List U8) (cap : Nat) (script : Nat → Act) (hs : ∀ k, (script k).fail = none)
    (ops : List Acc.Op) (os : List Acc.Out) (c : Context D Acc.Acc)
    (hr : Acc.Reachable dat cap script ops os c.reader) (p : Nat) (hp : Acc.StandsAt dat c.reader p) :
    ((∃ x c', readHeaders (windowDemuxer header event) accBuffered (dat.length - p + 2) c = .ok (x, c')) ↔
      ∀ n, (header c.demuxer c.info (dat.drop p)).1 ≠ .error (.MoreDataNeeded n)) := by
  have hi := hr.inv.1
  have hidx := index_of_standsAt hi hp
  constructor
  · rintro ⟨x, c', h⟩ n hn
    rw [(c178_exact header event hst dat cap script hs ops os c hr p hp).2 (.inl ⟨n, hn⟩)] at h
    cases h
  · intro h
    rcases heading_returns (header := header) (event := event) hst dat (dat.length - p + 1) c hi
        (by rw [hr.inv.2.2.1]; exact hs) (by rw [hidx]; exact h)
        (by intro x r _; rw [hidx, List.length_drop]; omega) with g | ⟨_, _, _, _, _, _, g⟩
    · exact g
    · exact absurd g (hpos _ _ _)

/-! ### examples -/

/-- Headers that begin with their length: a byte `n` that is not zero, then `n` bytes. The demuxer asks for what is missing and
remembers the length. -/
def sizedHeader (d : Nat) (info : GlobalInfo) (w : List U8) : Except Err SeekFrom × Nat × GlobalInfo :=
  match w with
  | [] => (.error (.MoreDataNeeded 1), d, info)
  | n :: w =>
    if w.length < n.toNat then (.error (.MoreDataNeeded (n.toNat - w.length)), d, info)
    else if n = 0 then (.error .InvalidData, d, info)
    else (.ok (.current (n.toNat + 1)), n.toNat, info)

theorem sized_settled : SettledHeader sizedHeader where
  stable := by
    intro d i w u h
    cases w with
    | nil => exact absurd rfl (h 1)
    | cons n w =>
      have hw : ¬ w.length < n.toNat := by
        intro hw
        exact absurd (by simp only [sizedHeader, if_pos hw]) (h (n.toNat - w.length))
      have hwu : ¬ (w ++ u).length < n.toNat := by rw [List.length_append]; omega
      simp only [sizedHeader, List.cons_append, if_neg hw, if_neg hwu]
  asks := by
    intro d i w n h
    cases w with
    | nil => rfl
    | cons m w =>
      simp only [sizedHeader] at h ⊢
      split at h
      · rw [if_pos (by assumption)]
      · split at h <;> cases h
  forward := by
    intro d i w k h
    cases w with
    | nil => cases h
    | cons m w =>
      simp only [sizedHeader] at h
      split at h
      · cases h
      · split at h
        · cases h
        · cases h; omega

theorem sized_asks (d : Nat) (i : GlobalInfo) (w : List U8) : (sizedHeader d i w).1 ≠ .error (.MoreDataNeeded 0) := by
  cases w with
  | nil => exact fun h => nomatch h
  | cons m w =>
    simp only [sizedHeader]
    split
    · intro h
      simp only [Except.error.injEq, Err.MoreDataNeeded.injEq] at h
      omega
    · split <;> exact fun h => nomatch h

/-- It gets the headers of any file that has them, through any capacity. -/
example (n : U8) (hn : n ≠ 0) (h rest : List U8) (hh : h.length = n.toNat) (cap : Nat) (event) :
    ∃ c', readHeaders (windowDemuxer sizedHeader event) accBuffered ((n :: h ++ rest).length - 0 + 2)
        (Context.new 0 (Acc.withCapacity cap ⟨n :: h ++ rest, 0, fun _ => ⟨none, 0⟩, 0⟩)) = .ok (.ok (), c') ∧
      c'.demuxer = n.toNat := by
  have hr : Acc.Reachable (n :: h ++ rest) cap (fun _ => ⟨none, 0⟩) [] []
      (Acc.withCapacity cap ⟨n :: h ++ rest, 0, fun _ => ⟨none, 0⟩, 0⟩) := ⟨_, 0, rfl, rfl, rfl, rfl⟩
  have hw : ¬ (h ++ rest).length < n.toNat := by rw [List.length_append]; omega
  have hall : ∀ i, sizedHeader 0 i ((n :: h ++ rest).drop 0) = (.ok (.current (n.toNat + 1)), n.toNat, i) := by
    intro i
    simp only [List.drop_zero, sizedHeader, List.cons_append, if_neg hw, if_neg hn]
  obtain ⟨x, c', g⟩ := (c178_returns sizedHeader event sized_settled sized_asks _ cap _ (fun _ => rfl) [] [] (Context.new 0 _) hr 0
    hr.inv.1.standsAt).2 (by intro m hm; simp only [Context.new] at hm; rw [hall] at hm; cases hm)
  rcases c178_sound sizedHeader event sized_settled _ cap _ [] [] (Context.new 0 _) hr 0 hr.inv.1.standsAt _ x c' g with
    ⟨_, k, hk⟩ | ⟨y, g1, g2, _⟩
  · exact absurd rfl hk
  · simp only [Context.new] at g1
    rw [hall] at g1
    simp only [Prod.mk.injEq] at g1
    obtain ⟨rfl, g1, _⟩ := g1
    subst g2
    exact ⟨c', g, g1.symm⟩

/-- The second case of `c178_exact`: a demuxer that wants two bytes but does not say how many are missing, with a buffer of one
byte, over a file of any length. -/
example (b : U8) (rest : List U8) (event) (fuel : Nat) :
    readHeaders (windowDemuxer (fun d i w => (if w.length < 2 then .error (.MoreDataNeeded 0) else .ok (.current 2), d, i)) event)
      accBuffered fuel (Context.new () (Acc.withCapacity 1 ⟨b :: rest, 0, fun _ => ⟨none, 64⟩, 0⟩)) = .error .fuel := by
  have hr : Acc.Reachable (b :: rest) 1 (fun _ => ⟨none, 64⟩) [] []
      (Acc.withCapacity 1 ⟨b :: rest, 0, fun _ => ⟨none, 64⟩, 0⟩) := ⟨_, 0, rfl, rfl, rfl, rfl⟩
  have hst : SettledHeader (D := Unit)
      (fun d i w => (if w.length < 2 then .error (.MoreDataNeeded 0) else .ok (.current 2), d, i)) := by
    refine ⟨fun d i w u h => ?_, fun _ _ _ _ _ => rfl, fun d i w k h => ?_⟩
    · have hw : ¬ w.length < 2 := fun hw => h 0 (by simp only [if_pos hw])
      have hwu : ¬ (w ++ u).length < 2 := by rw [List.length_append]; omega
      simp only [if_neg hw, if_neg hwu]
    · simp only at h
      split at h
      · cases h
      · cases h; decide
  refine (c178_exact _ event hst _ 1 _ (fun _ => rfl) [] [] (Context.new () _) hr 0 hr.inv.1.standsAt).2
    (.inr ⟨_, [b], _, .refl, fill_fresh (b :: rest) 1 _ (by decide) (by simp) rfl (by decide), rfl, rfl⟩) fuel

end Verif.Demux
