import Verif.Demux.Progress

/-!
# Properties C35 and C36: exactly when the two loops of the demuxer context do not end
-/

namespace Verif.Demux
open Verif Verif.Io Verif.Frame Verif.Stream Verif.Packet

variable {D : Type}

/-! ### C35 -/

/-- An answer of the demuxer that asks for `n` bytes and does not seek. -/
def Wants (x : Except Err (SeekFrom × Event)) (n : Nat) : Prop :=
  x = .error (.MoreDataNeeded n) ∨ x = .ok (.current 0, .MoreDataNeeded n)

/-- The demuxer's state after `i` calls on the same bytes. -/
def turns (event : D → List U8 → Except Err (SeekFrom × Event) × D) (w : List U8) : Nat → D → D
  | 0, d => d
  | i + 1, d => turns event w i (event d w).2

/-- Called again and again on the bytes `w`, the demuxer asks every time, and never for more bytes than
there are in `w`. -/
def Spins (event : D → List U8 → Except Err (SeekFrom × Event) × D) (w : List U8) (d : D) : Prop :=
  ∀ i, ∃ n, n ≤ w.length ∧ Wants (event (turns event w i d) w).1 n

theorem Rounds.trans {R : Type} {dm : Demuxer D R} {bf : Buffered R} {a b c : Context D R}
    (h1 : Rounds dm bf a b) (h2 : Rounds dm bf b c) : Rounds dm bf a c := by
  induction h1 with
  | refl => exact h2
  | step h _ ih => exact .step h (ih h2)

/-- Rounds that never end in an answer, in any reader. -/
theorem Rounds.diverges {R : Type} {dm : Demuxer D R} {bf : Buffered R} {c c' : Context D R}
    (h : Rounds dm bf c c') (hd : ∀ fuel, readEvent dm bf fuel c' = .error .fuel) :
    ∀ fuel, readEvent dm bf fuel c = .error .fuel := by
  induction h with
  | refl => exact hd
  | step h _ ih =>
    intro fuel
    cases fuel with
    | zero => rfl
    | succ fuel => rw [readEvent_round fuel h]; exact ih hd fuel

section
variable {header : D → GlobalInfo → List U8 → Except Err SeekFrom × D × GlobalInfo}
  {event : D → List U8 → Except Err (SeekFrom × Event) × D}

theorem window_call {dat : List U8} {c : Context D Acc.Acc} (hi : Acc.Inv dat c.reader) :
    (windowDemuxer header event).readEvent c.demuxer c.reader =
      .ok ((event c.demuxer (Acc.win c.reader)).1, (event c.demuxer (Acc.win c.reader)).2, c.reader) := by
  simp only [windowDemuxer, Acc.data_ok hi, ok_bind, pure_eq_ok]

/-- A request that does not seek leaves the reader alone. -/
theorem asks_window {dat : List U8} {c : Context D Acc.Acc} (hi : Acc.Inv dat c.reader) {n : Nat}
    (h : Wants (event c.demuxer (Acc.win c.reader)).1 n) :
    Asks (windowDemuxer header event) accBuffered c n
      ⟨(event c.demuxer (Acc.win c.reader)).2, c.reader, c.info, c.user_private⟩ := by
  have hcall := window_call (header := header) (event := event) hi
  rcases h with h | h
  · rw [h] at hcall; exact .error hcall
  · rw [h] at hcall
    exact .event hcall (show Acc.seek c.reader (.current 0) = _ from Acc.Inv.position hi)

theorem again_window {dat : List U8} {c : Context D Acc.Acc} (hi : Acc.Inv dat c.reader) {n : Nat}
    (h : Wants (event c.demuxer (Acc.win c.reader)).1 n) (hn : n ≤ (Acc.win c.reader).length) :
    Round (windowDemuxer header event) accBuffered c
      ⟨(event c.demuxer (Acc.win c.reader)).2, c.reader, c.info, c.user_private⟩ :=
  .again (asks_window hi h) (Acc.data_ok hi) hn

/-- A demuxer that spins is never left. -/
theorem Spins.diverges {dat : List U8} : ∀ (fuel : Nat) (c : Context D Acc.Acc), Acc.Inv dat c.reader →
    Spins event (Acc.win c.reader) c.demuxer →
    readEvent (windowDemuxer header event) accBuffered fuel c = .error .fuel := by
  intro fuel
  induction fuel with
  | zero => intros; rfl
  | succ fuel ih =>
    intro c hi hs
    obtain ⟨n, hn, hw⟩ := hs 0
    rw [readEvent_round fuel (again_window hi hw hn)]
    exact ih _ hi (fun i => hs (i + 1))

theorem terminates_or_spins {dat : List U8}
    (hq : ∀ d w sk n, (event d w).1 = .ok (sk, .MoreDataNeeded n) → sk = .current 0) :
    ∀ (a : Nat) (c : Context D Acc.Acc), Acc.Inv dat c.reader → dat.length - (Acc.win c.reader).length = a →
      (∀ c', Rounds (windowDemuxer header event) accBuffered c c' →
        ¬ Spins event (Acc.win c'.reader) c'.demuxer) →
      ∃ fuel x c', readEvent (windowDemuxer header event) accBuffered fuel c = .ok (x, c') := by
  intro a
  induction a using Nat.strongRecOn with
  | ind a iha =>
    have first : ∀ (c : Context D Acc.Acc), Acc.Inv dat c.reader →
        dat.length - (Acc.win c.reader).length = a →
        (∀ c', Rounds (windowDemuxer header event) accBuffered c c' →
          ¬ Spins event (Acc.win c'.reader) c'.demuxer) →
        (¬ ∃ n, n ≤ (Acc.win c.reader).length ∧ Wants (event c.demuxer (Acc.win c.reader)).1 n) →
        ∃ fuel x c', readEvent (windowDemuxer header event) accBuffered fuel c = .ok (x, c') := by
      intro c hi ha hns hno
      have hcall := window_call (header := header) (event := event) hi
      have hint : ∃ x c1, readEventInternal (windowDemuxer header event) accBuffered c = .ok (x, c1) := by
        unfold readEventInternal
        rw [hcall]
        simp only [ok_bind]
        cases (event c.demuxer (Acc.win c.reader)).1 with
        | error e => exact ⟨_, _, rfl⟩
        | ok v =>
          obtain ⟨sk, ev⟩ := v
          obtain ⟨y, r'', s1, _⟩ := Acc.seek_spec hi sk
          simp only [show accBuffered.seek = Acc.seek from rfl, s1, ok_bind]
          cases y with
          | error e => exact ⟨_, _, rfl⟩
          | ok m => cases ev <;> exact ⟨_, _, rfl⟩
      obtain ⟨x, c1, h1⟩ := hint
      rcases internal_spec h1 with h2 | ⟨n, rfl, h2⟩
      · exact ⟨1, x, c1, readEvent_answers 0 h2⟩
      · -- a request, and for more than is buffered
        have hw : Wants (event c.demuxer (Acc.win c.reader)).1 n := by
          cases h2 with
          | error b =>
            rw [hcall] at b
            simp only [Except.ok.injEq, Prod.mk.injEq] at b
            exact .inl b.1
          | event b _ =>
            rw [hcall] at b
            simp only [Except.ok.injEq, Prod.mk.injEq] at b
            obtain ⟨b1, _, _⟩ := b
            have := hq _ _ _ _ b1
            subst this
            exact .inr b1
        have h3 : (Acc.win c.reader).length < n :=
          Nat.lt_of_not_le (fun hle => hno ⟨n, hle, hw⟩)
        have hasks := asks_window (header := header) hi hw
        have hd1 : accBuffered.data c.reader = .ok (Acc.win c.reader) := Acc.data_ok hi
        obtain ⟨z, r, f1, f2⟩ := Acc.fillBuf_spec (Acc.grow_inv hi n).1
        obtain ⟨f2, g, e⟩ := fill_grown hi f1
        have hd2 : accBuffered.data r = .ok (Acc.win r) := Acc.data_ok f2.inv
        cases z with
        | error er => exact ⟨1, _, _, readEvent_runsOut 0 (.readError hasks hd1 h3 f1)⟩
        | ok l =>
          by_cases hw2 : (Acc.win r).length ≤ (Acc.win c.reader).length
          · exact ⟨1, _, _, readEvent_runsOut 0 (.eof hasks hd1 h3 f1 hd2 hw2)⟩
          · have hround : Round (windowDemuxer header event) accBuffered c _ :=
              .more hasks hd1 h3 f1 hd2 (by omega)
            have hle2 := win_le f2.inv
            obtain ⟨fuel, x, c', h⟩ := iha (dat.length - (Acc.win r).length) (by omega)
              ⟨(event c.demuxer (Acc.win c.reader)).2, r, c.info, c.user_private⟩ f2.inv rfl
              (fun c' hc' => hns c' (.step hround hc'))
            exact ⟨fuel + 1, x, c', by rw [readEvent_round fuel hround]; exact h⟩
    -- the number of calls that ask for no more than is there
    have main : ∀ (i : Nat) (c : Context D Acc.Acc), Acc.Inv dat c.reader →
        dat.length - (Acc.win c.reader).length = a →
        (∀ c', Rounds (windowDemuxer header event) accBuffered c c' →
          ¬ Spins event (Acc.win c'.reader) c'.demuxer) →
        (¬ ∃ n, n ≤ (Acc.win c.reader).length ∧
          Wants (event (turns event (Acc.win c.reader) i c.demuxer) (Acc.win c.reader)).1 n) →
        ∃ fuel x c', readEvent (windowDemuxer header event) accBuffered fuel c = .ok (x, c') := by
      intro i
      induction i with
      | zero => exact first
      | succ i ih =>
        intro c hi ha hns hno
        by_cases h0 : ∃ n, n ≤ (Acc.win c.reader).length ∧ Wants (event c.demuxer (Acc.win c.reader)).1 n
        · obtain ⟨n, hn, hw⟩ := h0
          have hround := again_window (header := header) hi hw hn
          obtain ⟨fuel, x, c', h⟩ := ih
            ⟨(event c.demuxer (Acc.win c.reader)).2, c.reader, c.info, c.user_private⟩ hi ha (fun c' hc' => hns c' (.step hround hc')) hno
          exact ⟨fuel + 1, x, c', by rw [readEvent_round fuel hround]; exact h⟩
        · exact first c hi ha hns h0
    intro c hi ha hns
    have h0 := hns c .refl
    have : ∃ i, ¬ ∃ n, n ≤ (Acc.win c.reader).length ∧
        Wants (event (turns event (Acc.win c.reader) i c.demuxer) (Acc.win c.reader)).1 n :=
      Classical.byContradiction (fun h => h0 (fun i => Classical.byContradiction (fun hi' => h ⟨i, hi'⟩)))
    obtain ⟨i, hi'⟩ := this
    exact main i c hi ha hns hi'
end

/-- C35, partial (the statement as given is false, see `c35_fails`): exactly when `read_event` does not
return. For every demuxer that decides by its state and the buffered bytes and whose requests do not seek,
every stream and every reachable reader, `read_event` never returns if and only if after some rounds the
demuxer spins: called again and again on the bytes then buffered, it keeps asking for no more than these. So
whatever the source does (short reads, errors, the end of the stream), no other loop exists. -/
theorem c35_exact_partial (header : D → GlobalInfo → List U8 → Except Err SeekFrom × D × GlobalInfo)
    (event : D → List U8 → Except Err (SeekFrom × Event) × D)
    (hq : ∀ d w sk n, (event d w).1 = .ok (sk, .MoreDataNeeded n) → sk = .current 0)
    (dat : List U8) (cap : Nat) (script : Nat → Act) (ops : List Acc.Op) (os : List Acc.Out)
    (c : Context D Acc.Acc) (hr : Acc.Reachable dat cap script ops os c.reader) :
    (∀ fuel, readEvent (windowDemuxer header event) accBuffered fuel c = .error .fuel) ↔
      ∃ c' w, Rounds (windowDemuxer header event) accBuffered c c' ∧ Acc.data c'.reader = .ok w ∧
        Spins event w c'.demuxer := by
  constructor
  · intro h
    apply Classical.byContradiction
    intro hno
    obtain ⟨fuel, x, c', hx⟩ := terminates_or_spins (header := header) hq _ c hr.inv.1 rfl
      (fun c' hc' hs => hno ⟨c', _, hc', Acc.data_ok (hc'.inv (windowDemuxer_api _ _) hr.inv.1), hs⟩)
    rw [h fuel] at hx
    cases hx
  · rintro ⟨c', w, h1, h2, h3⟩
    have hi := h1.inv (windowDemuxer_api _ _) hr.inv.1
    rw [Acc.data_ok hi] at h2
    cases h2
    exact h1.diverges (fun fuel => Spins.diverges fuel c' hi h3)

/-- The demuxer of `c35_fails` spins on two bytes, and on no window of one or of four bytes. -/
example : (∀ fuel, readEvent fourDemuxer accBuffered fuel fourContext = .error .fuel) ∧
    ¬ Spins (fun (_ : Unit) (w : List U8) => ((if w.length < 4 then .error (.MoreDataNeeded (4 - w.length))
      else .ok (.current 4, .Continue) : Except Err (SeekFrom × Event)), ())) [1] () := by
  constructor
  · refine (c35_exact_partial _ _ ?_ (List.replicate 10 1) 2 (fun _ => ⟨none, 9⟩) [.fillBuf] [.shown [1, 1]] _
      ⟨⟨List.replicate 10 1, 0, fun _ => ⟨none, 9⟩, 0⟩, 1, rfl, rfl, rfl, rfl⟩).2
      ⟨fourContext, [1, 1], .refl, rfl, fun i => ⟨2, by decide, .inl rfl⟩⟩
    intro d w sk n h
    by_cases hw : w.length < 4 <;> simp [hw] at h
  · intro h
    obtain ⟨n, hn, hw⟩ := h 0
    rcases hw with hw | hw
    · have : n = 3 := by
        have hw' : (Except.error (.MoreDataNeeded 3) : Except Err (SeekFrom × Event)) = .error (.MoreDataNeeded n) := hw
        cases hw'; rfl
      subst this
      exact absurd hn (by decide)
    · exact absurd hw (by intro h; exact nomatch (show (Except.error (.MoreDataNeeded 3) :
        Except Err (SeekFrom × Event)) = .ok (.current 0, .MoreDataNeeded n) from h))

/-- C35, partial: the common case of such a loop. Records take `m` bytes, and with fewer than `m` buffered
the demuxer asks for those that are missing, the documented meaning of the error. Once at least half of the
record's bytes are buffered, but not all, `read_event` does not return, whatever the source still holds. -/
theorem c35_half_partial (header : D → GlobalInfo → List U8 → Except Err SeekFrom × D × GlobalInfo)
    (event : D → List U8 → Except Err (SeekFrom × Event) × D) (m : Nat)
    (h1 : ∀ d w, w.length < m → event d w = (.error (.MoreDataNeeded (m - w.length)), d))
    (dat : List U8) (cap : Nat) (script : Nat → Act) (ops : List Acc.Op) (os : List Acc.Out)
    (c : Context D Acc.Acc) (hr : Acc.Reachable dat cap script ops os c.reader) (w : List U8)
    (hw : Acc.data c.reader = .ok w) (hlt : w.length < m) (hhalf : m ≤ 2 * w.length) :
    ∀ fuel, readEvent (windowDemuxer header event) accBuffered fuel c = .error .fuel := by
  rw [Acc.data_ok hr.inv.1] at hw
  cases hw
  intro fuel
  refine Spins.diverges fuel c hr.inv.1 ?_
  have ht : ∀ i, turns event (Acc.win c.reader) i c.demuxer = c.demuxer := by
    intro i
    induction i with
    | zero => rfl
    | succ i ih => simp only [turns, h1 _ _ hlt]; exact ih
  intro i
  refine ⟨m - (Acc.win c.reader).length, by omega, .inl ?_⟩
  rw [ht, h1 _ _ hlt]

example : ∀ fuel, readEvent fourDemuxer accBuffered fuel fourContext = .error .fuel :=
  c35_half_partial _ _ 4 (fun d w h => by simp [h]) (List.replicate 10 1) 2 (fun _ => ⟨none, 9⟩) [.fillBuf]
    [.shown [1, 1]] _ ⟨⟨List.replicate 10 1, 0, fun _ => ⟨none, 9⟩, 0⟩, 1, rfl, rfl, rfl, rfl⟩ [1, 1] rfl
    (by decide) (by decide)

/-- A demuxer that answers, and whose requests either move the reader forward inside the stream, or leave it
where it is, do not shrink its window, and are for more than is buffered or bring the demuxer's own state
forward. -/
structure Steady (dm : Demuxer D Acc.Acc) (dat : List U8) (μ : D → Nat) : Prop where
  api : UsesApi dm
  returns : ∀ d r, Acc.Inv dat r → ∃ x d' r', dm.readEvent d r = .ok (x, d', r')
  asks : ∀ c n c', Acc.Inv dat c.reader → Asks dm accBuffered c n c' →
    (c.reader.index < c'.reader.index ∧ c.reader.index < dat.length) ∨
    (c'.reader.index = c.reader.index ∧ (Acc.win c.reader).length ≤ (Acc.win c'.reader).length ∧
      ((Acc.win c'.reader).length < n ∨ μ c'.demuxer < μ c.demuxer))

theorem Steady.terminates {dm : Demuxer D Acc.Acc} {dat : List U8} {μ : D → Nat} (hp : Steady dm dat μ) :
    ∀ (p a b : Nat) (c : Context D Acc.Acc), Acc.Inv dat c.reader → dat.length - c.reader.index = p →
      dat.length - (Acc.win c.reader).length = a →
      μ c.demuxer = b → ∃ fuel x c', readEvent dm accBuffered fuel c = .ok (x, c') := by
  intro p
  induction p using Nat.strongRecOn with
  | ind p ihp =>
  intro a
  induction a using Nat.strongRecOn with
  | ind a iha =>
    intro b
    induction b using Nat.strongRecOn with
    | ind b ihb =>
      intro c hi hpp ha hb
      have hint : ∃ x c1, readEventInternal dm accBuffered c = .ok (x, c1) := by
        obtain ⟨x, d', r', h1⟩ := hp.returns c.demuxer c.reader hi
        obtain ⟨_, _, _, hr⟩ := hp.api.1 _ _ _ _ _ h1
        unfold readEventInternal
        rw [h1]
        simp only [ok_bind]
        cases x with
        | error e => exact ⟨_, _, rfl⟩
        | ok v =>
          obtain ⟨sk, ev⟩ := v
          obtain ⟨y, r'', s1, _⟩ := Acc.seek_spec (run_inv hi hr).1 sk
          simp only [show accBuffered.seek = Acc.seek from rfl, s1, ok_bind]
          cases y with
          | error e => exact ⟨_, _, rfl⟩
          | ok m => cases ev <;> exact ⟨_, _, rfl⟩
      obtain ⟨x, c1, h1⟩ := hint
      rcases internal_spec h1 with h2 | ⟨n, rfl, h2⟩
      · exact ⟨1, x, c1, readEvent_answers 0 h2⟩
      · have hi1 := h2.inv hp.api hi
        have hq := hp.asks _ _ _ hi h2
        have hd1 : accBuffered.data c1.reader = .ok (Acc.win c1.reader) := Acc.data_ok hi1
        have hle := win_le hi1
        have hle0 := win_le hi
        by_cases h3 : n ≤ (Acc.win c1.reader).length
        · have hround : Round dm accBuffered c c1 := .again h2 hd1 h3
          have : ∃ fuel x c', readEvent dm accBuffered fuel c1 = .ok (x, c') := by
            rcases hq with ⟨q1, q2⟩ | ⟨q1, q2, q3⟩
            · exact ihp _ (by omega) _ _ c1 hi1 rfl rfl rfl
            · by_cases hw : (Acc.win c.reader).length < (Acc.win c1.reader).length
              · exact iha _ (by omega) _ c1 hi1 (by omega) rfl rfl
              · exact ihb _ (by omega) c1 hi1 (by omega) (by omega) rfl
          obtain ⟨fuel, x, c', h⟩ := this
          exact ⟨fuel + 1, x, c', by rw [readEvent_round fuel hround]; exact h⟩
        · obtain ⟨z, r, f1, f2⟩ := Acc.fillBuf_spec (Acc.grow_inv hi1 n).1
          obtain ⟨f2, g, e⟩ := fill_grown hi1 f1
          have hd2 : accBuffered.data r = .ok (Acc.win r) := Acc.data_ok f2.inv
          cases z with
          | error er => exact ⟨1, _, _, readEvent_runsOut 0 (.readError h2 hd1 (by omega) f1)⟩
          | ok l =>
            by_cases hw : (Acc.win r).length ≤ (Acc.win c1.reader).length
            · exact ⟨1, _, _, readEvent_runsOut 0 (.eof h2 hd1 (by omega) f1 hd2 hw)⟩
            · have hround : Round dm accBuffered c _ := .more h2 hd1 (by omega) f1 hd2 (by omega)
              have hle2 := win_le f2.inv
              have hidx : r.index = c1.reader.index := f2.index
              have : ∃ fuel x c', readEvent dm accBuffered fuel
                  ⟨c1.demuxer, r, c1.info, c1.user_private⟩ = .ok (x, c') := by
                rcases hq with ⟨q1, q2⟩ | ⟨q1, q2, q3⟩
                · exact ihp (dat.length - r.index) (by omega) _ _ ⟨c1.demuxer, r, c1.info, c1.user_private⟩
                    f2.inv rfl rfl rfl
                · exact iha (dat.length - (Acc.win r).length) (by omega) _
                    ⟨c1.demuxer, r, c1.info, c1.user_private⟩ f2.inv (by simp only; omega) rfl rfl
              obtain ⟨fuel, x, c', h⟩ := this
              exact ⟨fuel + 1, x, c', by rw [readEvent_round fuel hround]; exact h⟩

/-- C35, partial: requests may also skip. As `c35_terminates_partial`, but a request may come with a seek
forward (as the padding of the container is skipped and the next call wanted) if at least one byte is
buffered where it is made; the seek may lead past the end of the stream, and it may fail. `read_event`
returns over every stream and from every reachable reader. -/
theorem c35_skips_partial (header : D → GlobalInfo → List U8 → Except Err SeekFrom × D × GlobalInfo)
    (event : D → List U8 → Except Err (SeekFrom × Event) × D) (μ : D → Nat)
    (h1 : ∀ d w n, (event d w).1 = .error (.MoreDataNeeded n) → w.length < n ∨ μ (event d w).2 < μ d)
    (h2 : ∀ d w sk n, (event d w).1 = .ok (sk, .MoreDataNeeded n) →
      (∃ k : Nat, 0 < k ∧ sk = .current k ∧ w ≠ []) ∨
      (sk = .current 0 ∧ (w.length < n ∨ μ (event d w).2 < μ d)))
    (dat : List U8) (cap : Nat) (script : Nat → Act) (ops : List Acc.Op) (os : List Acc.Out)
    (c : Context D Acc.Acc) (hr : Acc.Reachable dat cap script ops os c.reader) :
    ∃ fuel x c', readEvent (windowDemuxer header event) accBuffered fuel c = .ok (x, c') := by
  refine Steady.terminates (dm := windowDemuxer header event) (dat := dat) (μ := μ)
    ⟨windowDemuxer_api _ _, ?_, ?_⟩ _ _ _ c hr.inv.1 rfl rfl rfl
  · intro d r hi
    exact ⟨_, _, _, by simp only [windowDemuxer, Acc.data_ok hi, ok_bind, pure_eq_ok]; rfl⟩
  · intro c n c' hi ha
    have hcall := window_call (header := header) (event := event) hi
    cases ha with
    | error a =>
      rw [hcall] at a
      simp only [Except.ok.injEq, Prod.mk.injEq] at a
      obtain ⟨a1, a2, a3⟩ := a
      have := h1 _ _ _ a1
      subst a2 a3
      exact .inr ⟨rfl, Nat.le_refl _, this⟩
    | event a b =>
      rw [hcall] at a
      simp only [Except.ok.injEq, Prod.mk.injEq] at a
      obtain ⟨a1, a2, a3⟩ := a
      rcases h2 _ _ _ _ a1 with ⟨k, hk, hs, hne⟩ | ⟨hs, this⟩
      · subst a2 a3 hs
        left
        obtain ⟨y, r', s1, s2⟩ := Acc.seek_spec hi (.current k)
        have b' : Acc.seek c.reader (.current k) = _ := b
        rw [s1] at b'
        cases b'
        obtain ⟨t1, t2⟩ := s2.ok _ rfl
        simp only [Acc.seekTarget] at t1
        refine ⟨by simp only; omega, ?_⟩
        have hl := Acc.win_length hi
        have : 0 < (Acc.win c.reader).length := List.length_pos_iff.2 hne
        rcases hi.inData with h | h <;> omega
      · subst a2 a3 hs
        have hpos := Acc.Inv.position hi
        have b' : Acc.seek c.reader (.current 0) = _ := b
        unfold Acc.streamPosition at hpos
        rw [hpos] at b'
        cases b'
        exact .inr ⟨rfl, Nat.le_refl _, this⟩

/-- Bytes 255 are padding, skipped five at a time and asking for nothing; another byte is an event. -/
def padDemuxer : Demuxer Unit Acc.Acc :=
  windowDemuxer (fun d info _ => (.ok (.current 0), d, info))
    (fun d w => (match w with
      | [] => .error (.MoreDataNeeded 1)
      | 255 :: _ => .ok (.current 5, .MoreDataNeeded 0)
      | _ :: _ => .ok (.current 1, .Continue), d))

example (dat : List U8) : ∃ fuel x c', readEvent padDemuxer accBuffered fuel
    (Context.new () (Acc.withCapacity 3 ⟨dat, 0, sampleActs, 0⟩)) = .ok (x, c') := by
  refine c35_skips_partial _ _ (fun _ => 0) ?_ ?_ dat 3 sampleActs [] [] _
    ⟨⟨dat, 0, sampleActs, 0⟩, 0, rfl, rfl, rfl, rfl⟩
  · intro d w n h
    dsimp only at h
    split at h
    · simp only [Except.error.injEq, Err.MoreDataNeeded.injEq] at h; left; simp; omega
    · cases h
    · cases h
  · intro d w sk n h
    dsimp only at h
    split at h
    · cases h
    · cases h; exact .inl ⟨5, by decide, rfl, by simp⟩
    · cases h

/-- Eight bytes of padding, then the end: the second skip leads past it. -/
example : ∃ c', readEvent padDemuxer accBuffered 9
    (Context.new () (Acc.withCapacity 3 ⟨List.replicate 8 255, 0, sampleActs, 0⟩)) = .ok (.ok .Eof, c') := by
  have h : (match readEvent padDemuxer accBuffered 9
        (Context.new () (Acc.withCapacity 3 ⟨List.replicate 8 255, 0, sampleActs, 0⟩)) with
      | .ok (.ok .Eof, _) => true
      | _ => false) = true := by decide +kernel
  split at h
  · rename_i c' e
    exact ⟨c', e⟩
  · cases h

/-- The demuxer of the library's own tests (/repo/format/src/demuxer.rs:244-274): nine bytes of header;
events of three bytes told apart by the first two. -/
def dummyDemuxer : Demuxer Unit Acc.Acc :=
  windowDemuxer
    (fun d info w => (if 9 > w.length then .error (.MoreDataNeeded (9 - w.length)) else .ok (.current 9), d, info))
    (fun d w => (if 2 > w.length then .error (.MoreDataNeeded (2 - w.length)) else
      if w.take 2 = [112, 49] then .ok (.current 3, .NewPacket Packet.new)
      else if w.take 2 = [101, 49] then .ok (.current 3, .MoreDataNeeded 0)
      else .error .InvalidData, d))

/-- It loops for ever whenever exactly one byte is buffered, over any stream. -/
example (dat : List U8) (cap : Nat) (script : Nat → Act) (ops : List Acc.Op) (os : List Acc.Out)
    (c : Context Unit Acc.Acc) (hr : Acc.Reachable dat cap script ops os c.reader) (b : U8)
    (hw : Acc.data c.reader = .ok [b]) : ∀ fuel, readEvent dummyDemuxer accBuffered fuel c = .error .fuel :=
  c35_half_partial _ _ 2 (fun d w h => by simp [h]) dat cap script ops os c hr [b] hw
    (by simp only [List.length_cons, List.length_nil]; omega) (by simp only [List.length_cons, List.length_nil]; omega)

/-! ### C36 -/

/-- `k` rounds of `read_headers`. -/
inductive HSteps {R : Type} (dm : Demuxer D R) (bf : Buffered R) : Nat → Context D R → Context D R → Prop
  | refl {c} : HSteps dm bf 0 c c
  | step {k c c' c''} : HRound dm bf c c' → HSteps dm bf k c' c'' → HSteps dm bf (k + 1) c c''

section
variable {header : D → GlobalInfo → List U8 → Except Err SeekFrom × D × GlobalInfo}
  {event : D → List U8 → Except Err (SeekFrom × Event) × D}

theorem win_le_rest {dat r} (h : Acc.Inv dat r) : (Acc.win r).length ≤ (dat.drop r.index).length := by
  rw [Acc.win_length h, List.length_drop]
  rcases h.inData with h' | h' <;> omega

/-- One round over a source that does not fail, seen by a demuxer that asks. -/
theorem header_round {dat : List U8} {script : Nat → Act} (hs : ∀ k, (script k).fail = none)
    (c : Context D Acc.Acc) (hi : Acc.Inv dat c.reader) (hsc : c.reader.inner.script = script) :
    ∃ r, Acc.Inv dat r ∧ r.index = c.reader.index ∧ r.inner.script = script ∧
      r.buf.length = c.reader.buf.length ∧ (Acc.win c.reader).length ≤ (Acc.win r).length ∧
      ∀ n, (header c.demuxer c.info (Acc.win r)).1 = .error (.MoreDataNeeded n) →
        HRound (windowDemuxer header event) accBuffered c ⟨(header c.demuxer c.info (Acc.win r)).2.1,
          Acc.grow r n, (header c.demuxer c.info (Acc.win r)).2.2, c.user_private⟩ := by
  obtain ⟨x, r, f1, f⟩ := Acc.fillBuf_spec hi
  cases x with
  | error e =>
    obtain ⟨_, hf, _⟩ := f.error e rfl
    rw [hsc, hs] at hf
    cases hf
  | ok l =>
    obtain ⟨s1, s2, s3⟩ := f.shown l rfl
    refine ⟨r, f.inv, f.index, f.script.trans hsc, f.len, by rw [← s1]; exact s2.length_le, ?_⟩
    intro n hn
    refine .mk (bf := accBuffered) (r' := r) (n := n) f1 ?_ rfl
    simp only [windowDemuxer, Acc.data_ok f.inv, ok_bind, pure_eq_ok, hn]

/-- On a stream that ends before the headers do, every number of rounds is made, each growing the buffer. -/
theorem header_steps {dat : List U8} {script : Nat → Act} (hs : ∀ k, (script k).fail = none) (m : Nat)
    (h1 : ∀ d i w, w.length < m → ∃ n, 0 < n ∧ (header d i w).1 = .error (.MoreDataNeeded n)) :
    ∀ (k : Nat) (c : Context D Acc.Acc), Acc.Inv dat c.reader → c.reader.inner.script = script →
      (dat.drop c.reader.index).length < m →
      ∃ c', HSteps (windowDemuxer header event) accBuffered k c c' ∧
        c.reader.buf.length + k ≤ c'.reader.buf.length := by
  intro k
  induction k with
  | zero => intro c _ _ _; exact ⟨c, .refl, Nat.le_refl _⟩
  | succ k ih =>
    intro c hi hsc hlt
    obtain ⟨r, a1, a2, a3, a4, _, a5⟩ := header_round (header := header) (event := event) hs c hi hsc
    have hle := win_le_rest a1
    rw [a2] at hle
    obtain ⟨n, hn, hask⟩ := h1 c.demuxer c.info (Acc.win r) (by omega)
    have hround := a5 n hask
    obtain ⟨c', b1, b2⟩ := ih ⟨_, Acc.grow r n, _, _⟩ (Acc.grow_inv a1 n).1 a3
      (show (dat.drop r.index).length < m by rw [a2]; exact hlt)
    refine ⟨c', .step hround b1, ?_⟩
    simp only [Acc.grow, List.length_append, List.length_replicate, a4] at b2
    omega

theorem HSteps.fuel {R : Type} {dm : Demuxer D R} {bf : Buffered R} {k : Nat} {c c' : Context D R}
    (h : HSteps dm bf k c c') : readHeaders dm bf k c = .error .fuel := by
  induction h with
  | refl => rfl
  | step h _ ih => rw [readHeaders_round _ h]; exact ih
end

/-- C36, partial (termination on truncated streams is false, see `c36_fails`): exactly when `read_headers`
returns. For every demuxer that needs `m` bytes for its headers and asks for at least one byte while it has
fewer, every stream that does not fail, and every reachable reader (full or not), it returns if and only if
the stream holds at least `m` bytes from the current position on. If so, it succeeds within `m + 2` rounds;
if not, it goes on for ever and after `k` rounds the buffer is at least `k` bytes longer, so that no bound
on the memory taken exists. -/
theorem c36_exact_partial (header : D → GlobalInfo → List U8 → Except Err SeekFrom × D × GlobalInfo)
    (event : D → List U8 → Except Err (SeekFrom × Event) × D) (m : Nat)
    (h1 : ∀ d i w, w.length < m → ∃ n, 0 < n ∧ (header d i w).1 = .error (.MoreDataNeeded n))
    (h2 : ∀ d i w, m ≤ w.length → ∃ sk, (header d i w).1 = .ok sk)
    (dat : List U8) (cap : Nat) (script : Nat → Act) (hs : ∀ k, (script k).fail = none)
    (ops : List Acc.Op) (os : List Acc.Out) (c : Context D Acc.Acc)
    (hr : Acc.Reachable dat cap script ops os c.reader) :
    (m ≤ (dat.drop c.reader.index).length →
      ∃ c', readHeaders (windowDemuxer header event) accBuffered (m + 2) c = .ok (.ok (), c')) ∧
    ((dat.drop c.reader.index).length < m → ∀ k,
      readHeaders (windowDemuxer header event) accBuffered k c = .error .fuel ∧
      ∃ c', HSteps (windowDemuxer header event) accBuffered k c c' ∧
        c.reader.buf.length + k ≤ c'.reader.buf.length) := by
  have hi := hr.inv.1
  have hsc := hr.inv.2.2.1
  constructor
  · intro hm
    by_cases hroom : m ≤ (Acc.win c.reader).length ∨ (Acc.win c.reader).length < c.reader.buf.length
    · refine headers_terminate header event m h1 h2 dat script hs (m + 1) c hi hsc ?_ (by omega)
      rw [List.length_drop] at hm
      rcases hroom with h | h
      · exact .inl h
      · by_cases h0 : m = 0
        · exact .inl (by omega)
        · exact .inr ⟨h, by omega⟩
    · -- the buffer is full: the first round only makes room
      obtain ⟨r, a1, a2, a3, a4, a6, a5⟩ := header_round (header := header) (event := event) hs c hi hsc
      have hl := Acc.win_length a1
      have hl0 := Acc.win_length hi
      have := a1.eb
      have := hi.eb
      have hmw : ¬ m ≤ (Acc.win r).length := by omega
      obtain ⟨n, hn, hask⟩ := h1 c.demuxer c.info (Acc.win r) (by omega)
      have hround := a5 n hask
      obtain ⟨g1, g2⟩ := Acc.grow_inv a1 n
      rw [readHeaders_round _ hround]
      refine headers_terminate header event m h1 h2 dat script hs m _ g1 a3 (.inr ⟨?_, ?_⟩) (by omega)
      · change (Acc.win (Acc.grow r n)).length < _
        rw [g2]
        simp only [Acc.grow, List.length_append, List.length_replicate]
        omega
      · change r.index + m ≤ _
        rw [List.length_drop] at hm
        omega
  · intro hlt k
    obtain ⟨c', b1, b2⟩ := header_steps (header := header) (event := event) hs m h1 k c hi hsc hlt
    exact ⟨b1.fuel, c', b1, b2⟩

/-- The sample's headers take three bytes: with a full reader of capacity 1 they are read, and from a stream
of one byte they are not, however long the loop runs. -/
example : (∃ c', readHeaders sampleDemuxer accBuffered 5
      (Context.new () ⟨⟨sampleBytes, 1, fun _ => ⟨none, 0⟩, 1⟩, [2], 0, 1, 0⟩) = .ok (.ok (), c')) ∧
    ∀ k, readHeaders sampleDemuxer accBuffered k
      (Context.new () (Acc.withCapacity 1 ⟨[9], 0, fun _ => ⟨none, 0⟩, 0⟩)) = .error .fuel := by
  have h1 : ∀ (d : Unit) (i : GlobalInfo) (w : List U8), w.length < 3 →
      ∃ n, 0 < n ∧ ((sampleHeader w, d, i) : Except Err SeekFrom × Unit × GlobalInfo).1 = .error (.MoreDataNeeded n) :=
    fun d i w h => ⟨3 - w.length, by omega, by simp [sampleHeader, h]⟩
  have h2 : ∀ (d : Unit) (i : GlobalInfo) (w : List U8), 3 ≤ w.length →
      ∃ sk, ((sampleHeader w, d, i) : Except Err SeekFrom × Unit × GlobalInfo).1 = .ok sk :=
    fun d i w h => ⟨.current 3, by simp [sampleHeader, show ¬ w.length < 3 by omega]⟩
  constructor
  · exact (c36_exact_partial _ _ 3 h1 h2 sampleBytes 1 (fun _ => ⟨none, 0⟩) (fun _ => rfl) [.fillBuf]
      [.shown [2]] (Context.new () ⟨⟨sampleBytes, 1, fun _ => ⟨none, 0⟩, 1⟩, [2], 0, 1, 0⟩)
      ⟨⟨sampleBytes, 0, fun _ => ⟨none, 0⟩, 0⟩, 1, rfl, rfl, rfl, rfl⟩).1 (by decide)
  · intro k
    exact ((c36_exact_partial _ _ 3 h1 h2 [9] 1 (fun _ => ⟨none, 0⟩) (fun _ => rfl) [] []
      (Context.new () (Acc.withCapacity 1 ⟨[9], 0, fun _ => ⟨none, 0⟩, 0⟩))
      ⟨⟨[9], 0, fun _ => ⟨none, 0⟩, 0⟩, 0, rfl, rfl, rfl, rfl⟩).2 (by decide) k).1

end Verif.Demux
