import Verif.Demux.Spec

namespace Verif.Demux
open Verif Verif.Io Verif.Frame Verif.Stream Verif.Packet

theorem find_firstWith (i : Int) (l : List Stream) :
    FirstWith i l (l.find? (fun s => asIsize s.index == i)) := by
  induction l with
  | nil => exact .nil
  | cons st sts ih =>
    by_cases h : asIsize st.index = i
    · rw [List.find?_cons_of_pos (by simpa using h)]; exact .here h
    · rw [List.find?_cons_of_neg (by simpa using h)]; exact .later h ih

theorem FirstWith.unique {i : Int} {l : List Stream} {a b} (h : FirstWith i l a) (h' : FirstWith i l b) : a = b := by
  induction h with
  | nil => cases h'; rfl
  | here e => cases h' with
    | here => rfl
    | later n => exact absurd e n
  | later n _ ih => cases h' with
    | here e => exact absurd e n
    | later _ h => exact ih h

theorem setTimebase_completed (streams : List Stream) (p : Packet) : Completed streams p (setTimebase streams p) := by
  unfold setTimebase
  cases h : p.t.timebase with
  | some t => simpa using Completed.own h
  | none =>
    simp only [Option.isNone_none, if_true]
    have hf := find_firstWith p.stream_index streams
    cases hg : streams.find? (fun s => asIsize s.index == p.stream_index) with
    | none => rw [hg] at hf; exact .unknown h hf
    | some st => rw [hg] at hf; exact .stream h hf

theorem Completed.unique {streams : List Stream} {p a b : Packet} (h : Completed streams p a)
    (h' : Completed streams p b) : a = b := by
  cases h with
  | own h1 => cases h' with
    | own => rfl
    | stream h2 => rw [h1] at h2; cases h2
    | unknown => rfl
  | stream h1 h2 => cases h' with
    | own h3 => rw [h1] at h3; cases h3
    | stream _ h3 => cases h2.unique h3; rfl
    | unknown _ h3 => cases h2.unique h3
  | unknown h1 h2 => cases h' with
    | own => rfl
    | stream _ h3 => cases h2.unique h3
    | unknown => rfl

variable {D R : Type} {dm : Demuxer D R} {bf : Buffered R}

/-- The outcome of `read_event_internal`. -/
theorem internal_spec {c : Context D R} {x : Except Err Event} {c' : Context D R}
    (h : readEventInternal dm bf c = .ok (x, c')) :
    Answers dm bf c x c' ∨ ∃ n, x = .error (.MoreDataNeeded n) ∧ Asks dm bf c n c' := by
  unfold readEventInternal at h
  cases h1 : dm.readEvent c.demuxer c.reader with
  | error e => rw [h1] at h; cases h
  | ok v =>
    obtain ⟨res, d, r⟩ := v
    rw [h1] at h
    simp only [ok_bind] at h
    cases res with
    | error e =>
      cases h
      by_cases he : ∃ n, e = .MoreDataNeeded n
      · obtain ⟨n, rfl⟩ := he; exact .inr ⟨n, rfl, .error h1⟩
      · exact .inl (.error h1 (fun n hn => he ⟨n, hn⟩))
    | ok v =>
      obtain ⟨sk, ev⟩ := v
      simp only at h
      cases h2 : bf.seek r sk with
      | error e => rw [h2] at h; cases h
      | ok v =>
        obtain ⟨y, r'⟩ := v
        rw [h2] at h
        simp only [ok_bind] at h
        cases y with
        | error e => cases h; exact .inl (.seekError h1 h2)
        | ok m =>
          cases ev with
          | NewPacket p =>
            cases h
            have := Answers.event h1 h2 (.packet (setTimebase_completed c.info.streams p))
            simp only [announced, List.append_nil] at this
            exact .inl this
          | NewStream s => cases h; exact .inl (Answers.event h1 h2 .stream)
          | MoreDataNeeded n => cases h; exact .inr ⟨n, rfl, .event h1 h2⟩
          | Continue =>
            cases h
            have := Answers.event h1 h2 (Delivered.continue (streams := c.info.streams))
            simp only [announced, List.append_nil] at this
            exact .inl this
          | Eof =>
            cases h
            have := Answers.event h1 h2 (Delivered.eof (streams := c.info.streams))
            simp only [announced, List.append_nil] at this
            exact .inl this

theorem internal_asks {c : Context D R} {n : Nat} {c' : Context D R} (h : Asks dm bf c n c') :
    readEventInternal dm bf c = .ok (.error (.MoreDataNeeded n), c') := by
  cases h with
  | error h1 => simp [readEventInternal, h1]
  | event h1 h2 => simp [readEventInternal, h1, h2]

theorem internal_answers {c : Context D R} {x : Except Err Event} {c' : Context D R}
    (h : Answers dm bf c x c') : readEventInternal dm bf c = .ok (x, c') := by
  cases h with
  | error h1 h2 => simp [readEventInternal, h1]
  | seekError h1 h2 => simp [readEventInternal, h1, h2, Err.fromIo]
  | event h1 h2 h3 =>
    cases h3 with
    | packet h4 =>
      cases h4.unique (setTimebase_completed _ _)
      simp [readEventInternal, h1, h2, announced]
    | stream => simp [readEventInternal, h1, h2, announced]
    | «continue» => simp [readEventInternal, h1, h2, announced]
    | eof => simp [readEventInternal, h1, h2, announced]

theorem Answers.not_more {c : Context D R} {x : Except Err Event} {c' : Context D R}
    (h : Answers dm bf c x c') (n : Nat) : x ≠ .error (.MoreDataNeeded n) := by
  cases h with
  | error _ h => intro h'; cases h'; exact h n rfl
  | seekError => intro h'; cases h'
  | event => intro h'; cases h'

theorem readEvent_answers (fuel : Nat) {c : Context D R} {x : Except Err Event} {c' : Context D R}
    (h : Answers dm bf c x c') : readEvent dm bf (fuel + 1) c = .ok (x, c') := by
  have hn := h.not_more
  simp only [readEvent, internal_answers h, ok_bind]
  cases x with
  | ok ev => rfl
  | error e =>
    cases e with
    | MoreDataNeeded n => exact absurd rfl (hn n)
    | InvalidData => rfl
    | Io e => rfl

theorem readEvent_asks_eq (fuel : Nat) {c : Context D R} {n : Nat} {c' : Context D R} (h : Asks dm bf c n c') :
    readEvent dm bf (fuel + 1) c = (do
      let len := (← bf.data c'.reader).length
      if len ≥ n then readEvent dm bf fuel c'
      else do
        let (y, reader) ← bf.grow c'.reader n >>= bf.fillBuf
        let c := { c' with reader }
        match y with
        | .error e => .ok (.error (.fromIo e), c)
        | .ok _ => do
          let len' := (← bf.data c.reader).length
          if len' ≤ len then .ok (.ok .Eof, c) else readEvent dm bf fuel c) := by
  simp only [readEvent, internal_asks h, ok_bind]
  cases bf.grow c'.reader n <;> rfl

theorem readEvent_round (fuel : Nat) {c c' : Context D R} (h : Round dm bf c c') :
    readEvent dm bf (fuel + 1) c = readEvent dm bf fuel c' := by
  cases h with
  | again h1 h2 h3 =>
    simp only [readEvent_asks_eq fuel h1, h2, ok_bind]
    rw [if_pos h3]
  | more h1 h2 h3 h4 h5 h6 =>
    simp only [readEvent_asks_eq fuel h1, h2, ok_bind]
    rw [if_neg (by omega)]
    simp only [h4, ok_bind, h5]
    rw [if_neg (by omega)]

theorem readEvent_runsOut (fuel : Nat) {c c' : Context D R} {x : Except Err Event} (h : RunsOut dm bf c x c') :
    readEvent dm bf (fuel + 1) c = .ok (x, c') := by
  cases h with
  | readError h1 h2 h3 h4 =>
    simp only [readEvent_asks_eq fuel h1, h2, ok_bind]
    rw [if_neg (by omega)]
    simp only [h4, ok_bind, Err.fromIo]
  | eof h1 h2 h3 h4 h5 h6 =>
    simp only [readEvent_asks_eq fuel h1, h2, ok_bind]
    rw [if_neg (by omega)]
    simp only [h4, ok_bind, h5]
    rw [if_pos h6]

theorem readEvent_spec (fuel : Nat) : ∀ {c c' : Context D R} {x : Except Err Event},
    readEvent dm bf fuel c = .ok (x, c') →
    ∃ c0, Rounds dm bf c c0 ∧ (Answers dm bf c0 x c' ∨ RunsOut dm bf c0 x c') := by
  induction fuel with
  | zero => intro c c' x h; cases h
  | succ fuel ih =>
    intro c c' x h
    cases h1 : readEventInternal dm bf c with
    | error e => simp only [readEvent, h1] at h; cases h
    | ok v =>
      obtain ⟨y, c1⟩ := v
      rcases internal_spec h1 with h2 | ⟨n, rfl, h2⟩
      · rw [readEvent_answers fuel h2] at h
        cases h
        exact ⟨c, .refl, .inl h2⟩
      · rw [readEvent_asks_eq fuel h2] at h
        cases h3 : bf.data c1.reader with
        | error e => rw [h3] at h; cases h
        | ok w =>
          simp only [h3, ok_bind] at h
          by_cases h4 : n ≤ w.length
          · rw [if_pos h4] at h
            obtain ⟨c0, r, hh⟩ := ih h
            exact ⟨c0, .step (.again h2 h3 h4) r, hh⟩
          · rw [if_neg h4] at h
            cases h5 : bf.grow c1.reader n >>= bf.fillBuf with
            | error e => rw [h5] at h; cases h
            | ok v =>
              obtain ⟨z, r⟩ := v
              simp only [h5, ok_bind] at h
              cases z with
              | error e => cases h; exact ⟨c, .refl, .inr (.readError h2 h3 (by omega) h5)⟩
              | ok l =>
                simp only at h
                cases h6 : bf.data r with
                | error e => rw [h6] at h; cases h
                | ok w' =>
                  simp only [h6, ok_bind] at h
                  by_cases h7 : w'.length ≤ w.length
                  · rw [if_pos h7] at h
                    cases h
                    exact ⟨c, .refl, .inr (.eof h2 h3 (by omega) h5 h6 h7)⟩
                  · rw [if_neg h7] at h
                    obtain ⟨c0, r, hh⟩ := ih h
                    exact ⟨c0, .step (.more h2 h3 (by omega) h5 h6 (by omega)) r, hh⟩

theorem Asks.info {c c' : Context D R} {n} (h : Asks dm bf c n c') : c'.info = c.info := by cases h <;> rfl

theorem Rounds.info {c c' : Context D R} (h : Rounds dm bf c c') : c'.info = c.info := by
  induction h with
  | refl => rfl
  | step h _ ih =>
    rw [ih]
    cases h with
    | again h => exact h.info
    | more h => exact h.info

theorem Rounds.complete {c c0 c' : Context D R} {x : Except Err Event} (h : Rounds dm bf c c0)
    (hl : Answers dm bf c0 x c' ∨ RunsOut dm bf c0 x c') :
    ∃ N, ∀ fuel, N ≤ fuel → readEvent dm bf fuel c = .ok (x, c') := by
  induction h with
  | refl =>
    refine ⟨1, ?_⟩
    rintro (_ | fuel) hf
    · omega
    · rcases hl with hl | hl
      · exact readEvent_answers fuel hl
      · exact readEvent_runsOut fuel hl
  | step h _ ih =>
    obtain ⟨N, hN⟩ := ih hl
    refine ⟨N + 1, ?_⟩
    rintro (_ | fuel) hf
    · omega
    · rw [readEvent_round fuel h]; exact hN fuel (by omega)

/-! ### read_headers -/

theorem readHeaders_round (fuel : Nat) {c c' : Context D R} (h : HRound dm bf c c') :
    readHeaders dm bf (fuel + 1) c = readHeaders dm bf fuel c' := by
  cases h with
  | mk h1 h2 h3 => simp only [readHeaders, h1, ok_bind, readHeadersInternal, h2, h3]

theorem readHeaders_last (fuel : Nat) {c c' : Context D R} {x : Except Err Unit} (h : HLast dm bf c x c') :
    readHeaders dm bf (fuel + 1) c = .ok (x, c') := by
  cases h with
  | readError h1 => simp only [readHeaders, h1, ok_bind, Err.fromIo]
  | @error l r d r' info e h1 h2 h3 =>
    simp only [readHeaders, h1, ok_bind, readHeadersInternal, h2]
  | accepted h1 h2 h3 => simp only [readHeaders, h1, ok_bind, readHeadersInternal, h2, h3, pure_eq_ok]

theorem readHeaders_spec (fuel : Nat) : ∀ {c c' : Context D R} {x : Except Err Unit},
    readHeaders dm bf fuel c = .ok (x, c') → ∃ c0, HRounds dm bf c c0 ∧ HLast dm bf c0 x c' := by
  induction fuel with
  | zero => intro c c' x h; cases h
  | succ fuel ih =>
    intro c c' x h
    cases h1 : bf.fillBuf c.reader with
    | error e => simp only [readHeaders, h1] at h; cases h
    | ok v =>
      obtain ⟨y, r⟩ := v
      cases y with
      | error e =>
        have hl : HLast dm bf c _ _ := .readError h1
        rw [readHeaders_last fuel hl] at h
        cases h
        exact ⟨c, .refl, hl⟩
      | ok l =>
        cases h2 : dm.readHeaders c.demuxer r c.info with
        | error e => simp only [readHeaders, h1, ok_bind, readHeadersInternal, h2] at h; cases h
        | ok v =>
          obtain ⟨z, d, r', info⟩ := v
          cases z with
          | error e =>
            by_cases he : ∃ n, e = .MoreDataNeeded n
            · obtain ⟨n, rfl⟩ := he
              cases h3 : bf.grow r' n with
              | error e => simp only [readHeaders, h1, ok_bind, readHeadersInternal, h2, h3] at h; cases h
              | ok g =>
                have hr : HRound dm bf c _ := .mk h1 h2 h3
                rw [readHeaders_round fuel hr] at h
                obtain ⟨c0, a, b⟩ := ih h
                exact ⟨c0, .step hr a, b⟩
            · have hl : HLast dm bf c _ _ := .error h1 h2 (fun n hn => he ⟨n, hn⟩)
              rw [readHeaders_last fuel hl] at h
              cases h
              exact ⟨c, .refl, hl⟩
          | ok sk =>
            cases h3 : bf.seek r' sk with
            | error e => simp only [readHeaders, h1, ok_bind, readHeadersInternal, h2, h3] at h; cases h
            | ok v =>
              obtain ⟨y, r''⟩ := v
              have hl : HLast dm bf c _ _ := .accepted h1 h2 h3
              rw [readHeaders_last fuel hl] at h
              cases h
              exact ⟨c, .refl, hl⟩

theorem HRounds.complete {c c0 c' : Context D R} {x : Except Err Unit} (h : HRounds dm bf c c0)
    (hl : HLast dm bf c0 x c') : ∃ N, ∀ fuel, N ≤ fuel → readHeaders dm bf fuel c = .ok (x, c') := by
  induction h with
  | refl =>
    refine ⟨1, ?_⟩
    rintro (_ | fuel) hf
    · omega
    · exact readHeaders_last fuel hl
  | step h _ ih =>
    obtain ⟨N, hN⟩ := ih hl
    refine ⟨N + 1, ?_⟩
    rintro (_ | fuel) hf
    · omega
    · rw [readHeaders_round fuel h]; exact hN fuel (by omega)

end Verif.Demux
