import Verif.Demux.Progress
import Verif.Acc.Narrow

/-!
# C108, C109: when `read_event` and `read_headers` panic

The two loops index nothing, unwrap nothing and compute nothing, so a panic can only come out of the demuxer
or out of the reader they call. C109 takes `AccReader`, whose `grow` adds to a length and allocates.
-/

namespace Verif.Demux
open Verif Verif.Io Verif.Stream Verif.Packet Verif.Data

section
variable {D R : Type} (dm : Demuxer D R) (bf : Buffered R)

/-- In a round of `read_event` starting in `c`, something that is called panics with `p`. -/
inductive Breaks (c : Context D R) (p : Panic) : Prop
  | demuxer : dm.readEvent c.demuxer c.reader = .error p → Breaks c p
  | seek {sk ev d r} : dm.readEvent c.demuxer c.reader = .ok (.ok (sk, ev), d, r) → bf.seek r sk = .error p →
      Breaks c p
  | data {n c'} : Asks dm bf c n c' → bf.data c'.reader = .error p → Breaks c p
  | grow {n c' w} : Asks dm bf c n c' → bf.data c'.reader = .ok w → w.length < n →
      bf.grow c'.reader n = .error p → Breaks c p
  | fill {n c' w r} : Asks dm bf c n c' → bf.data c'.reader = .ok w → w.length < n →
      bf.grow c'.reader n = .ok r → bf.fillBuf r = .error p → Breaks c p
  | filled {n c' w g l r} : Asks dm bf c n c' → bf.data c'.reader = .ok w → w.length < n →
      bf.grow c'.reader n = .ok g → bf.fillBuf g = .ok (.ok l, r) → bf.data r = .error p → Breaks c p

/-- In a round of `read_headers` starting in `c`, something that is called panics with `p`. -/
inductive HBreaks (c : Context D R) (p : Panic) : Prop
  | fill : bf.fillBuf c.reader = .error p → HBreaks c p
  | demuxer {l r} : bf.fillBuf c.reader = .ok (.ok l, r) → dm.readHeaders c.demuxer r c.info = .error p →
      HBreaks c p
  | seek {l r sk d r' info} : bf.fillBuf c.reader = .ok (.ok l, r) →
      dm.readHeaders c.demuxer r c.info = .ok (.ok sk, d, r', info) → bf.seek r' sk = .error p → HBreaks c p
  | grow {l r n d r' info} : bf.fillBuf c.reader = .ok (.ok l, r) →
      dm.readHeaders c.demuxer r c.info = .ok (.error (.MoreDataNeeded n), d, r', info) →
      bf.grow r' n = .error p → HBreaks c p
end

variable {D R : Type} {dm : Demuxer D R} {bf : Buffered R}

theorem internal_breaks {c : Context D R} {p : Panic} (h : readEventInternal dm bf c = .error p) :
    Breaks dm bf c p := by
  simp only [readEventInternal] at h
  cases h1 : dm.readEvent c.demuxer c.reader with
  | error e => rw [h1] at h; cases h; exact .demuxer h1
  | ok v =>
    obtain ⟨res, d, r⟩ := v
    rw [h1] at h
    simp only [ok_bind] at h
    cases res with
    | error e => cases h
    | ok v =>
      obtain ⟨sk, ev⟩ := v
      simp only at h
      cases h2 : bf.seek r sk with
      | error e => rw [h2] at h; cases h; exact .seek h1 h2
      | ok v =>
        obtain ⟨y, r'⟩ := v
        rw [h2] at h
        simp only [ok_bind] at h
        cases y with
        | error e => cases h
        | ok m => cases ev <;> cases h

theorem readEvent_breaks (fuel : Nat) {c : Context D R} {p : Panic} (h : Breaks dm bf c p) :
    readEvent dm bf (fuel + 1) c = .error p := by
  cases h with
  | demuxer h1 => simp [readEvent, readEventInternal, h1]
  | seek h1 h2 => simp [readEvent, readEventInternal, h1, h2]
  | data h1 h2 => simp [readEvent_asks_eq fuel h1, h2]
  | grow h1 h2 h3 h4 =>
    simp only [readEvent_asks_eq fuel h1, h2, ok_bind]
    rw [if_neg (by omega), h4]; rfl
  | fill h1 h2 h3 h4 h5 =>
    simp only [readEvent_asks_eq fuel h1, h2, ok_bind]
    rw [if_neg (by omega), h4, ok_bind, h5]; rfl
  | filled h1 h2 h3 h4 h5 h6 =>
    simp only [readEvent_asks_eq fuel h1, h2, ok_bind]
    rw [if_neg (by omega), h4, ok_bind, h5]
    simp only [ok_bind, h6, error_bind]

theorem readEvent_panics (fuel : Nat) : ∀ {c : Context D R} {p : Panic}, p ≠ .fuel →
    readEvent dm bf fuel c = .error p → ∃ c0, Rounds dm bf c c0 ∧ Breaks dm bf c0 p := by
  induction fuel with
  | zero => intro c p hp h; cases h; exact absurd rfl hp
  | succ fuel ih =>
    intro c p hp h
    cases h1 : readEventInternal dm bf c with
    | error e => simp only [readEvent, h1] at h; cases h; exact ⟨c, .refl, internal_breaks h1⟩
    | ok v =>
      obtain ⟨y, c1⟩ := v
      rcases internal_spec h1 with h2 | ⟨n, rfl, h2⟩
      · rw [readEvent_answers fuel h2] at h; cases h
      · rw [readEvent_asks_eq fuel h2] at h
        cases h3 : bf.data c1.reader with
        | error e => rw [h3] at h; cases h; exact ⟨c, .refl, .data h2 h3⟩
        | ok w =>
          simp only [h3, ok_bind] at h
          by_cases h4 : n ≤ w.length
          · rw [if_pos h4] at h
            obtain ⟨c0, r, hh⟩ := ih hp h
            exact ⟨c0, .step (.again h2 h3 h4) r, hh⟩
          · rw [if_neg h4] at h
            cases h5 : bf.grow c1.reader n with
            | error e => rw [h5] at h; cases h; exact ⟨c, .refl, .grow h2 h3 (by omega) h5⟩
            | ok g =>
              rw [h5, ok_bind] at h
              cases h6 : bf.fillBuf g with
              | error e => rw [h6] at h; cases h; exact ⟨c, .refl, .fill h2 h3 (by omega) h5 h6⟩
              | ok v =>
                obtain ⟨z, r⟩ := v
                simp only [h6, ok_bind] at h
                cases z with
                | error e => cases h
                | ok l =>
                  simp only at h
                  cases h7 : bf.data r with
                  | error e => rw [h7] at h; cases h; exact ⟨c, .refl, .filled h2 h3 (by omega) h5 h6 h7⟩
                  | ok w' =>
                    simp only [h7, ok_bind] at h
                    by_cases h8 : w'.length ≤ w.length
                    · rw [if_pos h8] at h; cases h
                    · rw [if_neg h8] at h
                      obtain ⟨c0, rr, hh⟩ := ih hp h
                      refine ⟨c0, .step (.more (l := l) h2 h3 (by omega) ?_ h7 (by omega)) rr, hh⟩
                      rw [h5]; exact h6

theorem Rounds.breaks {c c0 : Context D R} {p : Panic} (h : Rounds dm bf c c0) (hb : Breaks dm bf c0 p) :
    ∃ N, ∀ fuel, N ≤ fuel → readEvent dm bf fuel c = .error p := by
  induction h with
  | refl =>
    refine ⟨1, ?_⟩
    rintro (_ | fuel) hf
    · omega
    · exact readEvent_breaks fuel hb
  | step h _ ih =>
    obtain ⟨N, hN⟩ := ih hb
    refine ⟨N + 1, ?_⟩
    rintro (_ | fuel) hf
    · omega
    · rw [readEvent_round fuel h]; exact hN fuel (by omega)

/-- C108, `read_event`: it panics exactly when, after some rounds, the demuxer or a function of the reader
panics, and with the same panic. -/
theorem c108_readEvent (c : Context D R) (p : Panic) (hp : p ≠ .fuel) :
    (∃ fuel, readEvent dm bf fuel c = .error p) ↔ ∃ c0, Rounds dm bf c c0 ∧ Breaks dm bf c0 p := by
  constructor
  · rintro ⟨fuel, h⟩; exact readEvent_panics fuel hp h
  · rintro ⟨c0, h1, h2⟩
    obtain ⟨N, hN⟩ := h1.breaks h2
    exact ⟨N, hN N (Nat.le_refl _)⟩

theorem readHeaders_breaks (fuel : Nat) {c : Context D R} {p : Panic} (h : HBreaks dm bf c p) :
    readHeaders dm bf (fuel + 1) c = .error p := by
  cases h with
  | fill h1 => simp [readHeaders, h1]
  | demuxer h1 h2 => simp [readHeaders, readHeadersInternal, h1, h2]
  | seek h1 h2 h3 => simp [readHeaders, readHeadersInternal, h1, h2, h3]
  | grow h1 h2 h3 => simp [readHeaders, readHeadersInternal, h1, h2, h3]

theorem readHeaders_panics (fuel : Nat) : ∀ {c : Context D R} {p : Panic}, p ≠ .fuel →
    readHeaders dm bf fuel c = .error p → ∃ c0, HRounds dm bf c c0 ∧ HBreaks dm bf c0 p := by
  induction fuel with
  | zero => intro c p hp h; cases h; exact absurd rfl hp
  | succ fuel ih =>
    intro c p hp h
    cases h1 : bf.fillBuf c.reader with
    | error e => simp only [readHeaders, h1] at h; cases h; exact ⟨c, .refl, .fill h1⟩
    | ok v =>
      obtain ⟨y, r⟩ := v
      cases y with
      | error e => simp only [readHeaders, h1, ok_bind] at h; cases h
      | ok l =>
        cases h2 : dm.readHeaders c.demuxer r c.info with
        | error e =>
          simp only [readHeaders, h1, ok_bind, readHeadersInternal, h2] at h
          cases h; exact ⟨c, .refl, .demuxer h1 h2⟩
        | ok v =>
          obtain ⟨res, d, r', info⟩ := v
          cases res with
          | error e =>
            by_cases he : ∃ n, e = .MoreDataNeeded n
            · obtain ⟨n, rfl⟩ := he
              cases h3 : bf.grow r' n with
              | error e =>
                simp only [readHeaders, h1, ok_bind, readHeadersInternal, h2, h3] at h
                cases h; exact ⟨c, .refl, .grow h1 h2 h3⟩
              | ok g =>
                have hr : HRound dm bf c _ := .mk h1 h2 h3
                rw [readHeaders_round fuel hr] at h
                obtain ⟨c0, a, b⟩ := ih hp h
                exact ⟨c0, .step hr a, b⟩
            · have hl : HLast dm bf c _ _ := .error h1 h2 (fun n hn => he ⟨n, hn⟩)
              rw [readHeaders_last fuel hl] at h
              cases h
          | ok sk =>
            cases h3 : bf.seek r' sk with
            | error e =>
              simp only [readHeaders, h1, ok_bind, readHeadersInternal, h2, h3] at h
              cases h; exact ⟨c, .refl, .seek h1 h2 h3⟩
            | ok v =>
              have hl : HLast dm bf c _ _ := .accepted h1 h2 h3
              rw [readHeaders_last fuel hl] at h
              cases h

theorem HRounds.breaks {c c0 : Context D R} {p : Panic} (h : HRounds dm bf c c0) (hb : HBreaks dm bf c0 p) :
    ∃ N, ∀ fuel, N ≤ fuel → readHeaders dm bf fuel c = .error p := by
  induction h with
  | refl =>
    refine ⟨1, ?_⟩
    rintro (_ | fuel) hf
    · omega
    · exact readHeaders_breaks fuel hb
  | step h _ ih =>
    obtain ⟨N, hN⟩ := ih hb
    refine ⟨N + 1, ?_⟩
    rintro (_ | fuel) hf
    · omega
    · rw [readHeaders_round fuel h]; exact hN fuel (by omega)

/-- C108, `read_headers`. -/
theorem c108_readHeaders (c : Context D R) (p : Panic) (hp : p ≠ .fuel) :
    (∃ fuel, readHeaders dm bf fuel c = .error p) ↔ ∃ c0, HRounds dm bf c c0 ∧ HBreaks dm bf c0 p := by
  constructor
  · rintro ⟨fuel, h⟩; exact readHeaders_panics fuel hp h
  · rintro ⟨c0, h1, h2⟩
    obtain ⟨N, hN⟩ := h1.breaks h2
    exact ⟨N, hN N (Nat.le_refl _)⟩

/-- A demuxer that asks for a byte and, shown one, panics. -/
def fragileDemuxer : Demuxer Unit Acc.Acc where
  readHeaders d r info := do
    if (← Acc.data r).length = 0 then return (.error (.MoreDataNeeded 1), d, r, info) else .error .unwrap
  readEvent d r := do
    if (← Acc.data r).length = 0 then return (.error (.MoreDataNeeded 1), d, r) else .error .unwrap

def fragileContext : Context Unit Acc.Acc := Context.new () (Acc.withCapacity 0 ⟨[7], 0, fun _ => ⟨none, 0⟩, 0⟩)

example : (∃ c0, Rounds fragileDemuxer accBuffered fragileContext c0 ∧
      Breaks fragileDemuxer accBuffered c0 .unwrap) ∧
    (∃ c0, HRounds fragileDemuxer accBuffered fragileContext c0 ∧
      HBreaks fragileDemuxer accBuffered c0 .unwrap) ∧
    readEvent fragileDemuxer accBuffered 1 fragileContext = .error .fuel :=
  ⟨(c108_readEvent _ _ (by decide)).1 ⟨2, rfl⟩, (c108_readHeaders _ _ (by decide)).1 ⟨2, rfl⟩, rfl⟩

/-! ### C109 -/

/-- accreader.rs:91-94 with a `usize` of `bits` bits: the addition is checked, and `Vec::resize` refuses more than
`isize::MAX` bytes. -/
def growBounded (bits : Nat) (r : Acc.Acc) (len : Nat) : Rust Acc.Acc := do
  let l ← (Acc.narrowAcc bits true).add r.buf.length len
  if 2 ^ (bits - 1) ≤ l then .error .explicit
  else return { r with buf := r.buf ++ List.replicate (l - r.buf.length) 0 }

/-- `AccReader` with the `grow` above. -/
def accBounded (bits : Nat) : Buffered Acc.Acc := { accBuffered with grow := growBounded bits }

/-- The panic of a `grow` to `l` bytes. -/
def tooLarge (bits l : Nat) : Panic := if 2 ^ bits ≤ l then .overflow else .explicit

theorem growBounded_eq (bits : Nat) (r : Acc.Acc) (n : Nat) : growBounded bits r n =
    if 2 ^ (bits - 1) ≤ r.buf.length + n then .error (tooLarge bits (r.buf.length + n)) else .ok (Acc.grow r n) := by
  have hb : 2 ^ (bits - 1) ≤ 2 ^ bits := Nat.pow_le_pow_right (by omega) (by omega)
  unfold growBounded tooLarge Acc.narrowAcc
  dsimp only
  by_cases h1 : r.buf.length + n < 2 ^ bits
  · rw [if_pos h1, ok_bind]
    by_cases h2 : 2 ^ (bits - 1) ≤ r.buf.length + n
    · rw [if_pos h2, if_pos h2, if_neg (by omega)]
    · rw [if_neg h2, if_neg h2]
      simp [Acc.grow]
  · rw [if_neg h1, if_pos rfl, error_bind, if_pos (by omega), if_pos (by omega)]

theorem growBounded_ok {bits : Nat} {r g : Acc.Acc} {n : Nat} (h : growBounded bits r n = .ok g) : g = Acc.grow r n := by
  rw [growBounded_eq] at h
  split at h
  · cases h
  · cases h; rfl

theorem Asks.unbounded {bits : Nat} {dm : Demuxer D Acc.Acc} {c c' : Context D Acc.Acc} {n : Nat}
    (h : Asks dm (accBounded bits) c n c') : Asks dm accBuffered c n c' := by
  cases h with
  | error h => exact .error h
  | event h h' => exact .event h h'

theorem Answers.unbounded {bits : Nat} {dm : Demuxer D Acc.Acc} {c c' : Context D Acc.Acc} {x}
    (h : Answers dm (accBounded bits) c x c') : Answers dm accBuffered c x c' := by
  cases h with
  | error h h' => exact .error h h'
  | seekError h h' => exact .seekError h h'
  | event h h' h'' => exact .event h h' h''

theorem grow_fill {bits : Nat} {r r' : Acc.Acc} {n : Nat} {x} (h : ((accBounded bits).grow r n >>= (accBounded bits).fillBuf) = .ok (x, r')) :
    (accBuffered.grow r n >>= accBuffered.fillBuf) = .ok (x, r') := by
  cases hg : (accBounded bits).grow r n with
  | error e => rw [hg] at h; cases h
  | ok g =>
    rw [hg] at h
    cases growBounded_ok hg
    exact h

theorem Round.unbounded {bits : Nat} {dm : Demuxer D Acc.Acc} {c c' : Context D Acc.Acc}
    (h : Round dm (accBounded bits) c c') : Round dm accBuffered c c' := by
  cases h with
  | again h1 h2 h3 => exact .again h1.unbounded h2 h3
  | more h1 h2 h3 h4 h5 h6 => exact .more h1.unbounded h2 h3 (grow_fill h4) h5 h6

theorem RunsOut.unbounded {bits : Nat} {dm : Demuxer D Acc.Acc} {c c' : Context D Acc.Acc} {x}
    (h : RunsOut dm (accBounded bits) c x c') : RunsOut dm accBuffered c x c' := by
  cases h with
  | readError h1 h2 h3 h4 => exact .readError h1.unbounded h2 h3 (grow_fill h4)
  | eof h1 h2 h3 h4 h5 h6 => exact .eof h1.unbounded h2 h3 (grow_fill h4) h5 h6

theorem Rounds.unbounded {bits : Nat} {dm : Demuxer D Acc.Acc} {c c' : Context D Acc.Acc}
    (h : Rounds dm (accBounded bits) c c') : Rounds dm accBuffered c c' := by
  induction h with
  | refl => exact .refl
  | step h _ ih => exact .step h.unbounded ih

theorem HRound.unbounded {bits : Nat} {dm : Demuxer D Acc.Acc} {c c' : Context D Acc.Acc}
    (h : HRound dm (accBounded bits) c c') : HRound dm accBuffered c c' := by
  cases h with
  | mk h1 h2 h3 => cases growBounded_ok h3; exact .mk h1 h2 rfl

theorem HRounds.unbounded {bits : Nat} {dm : Demuxer D Acc.Acc} {c c' : Context D Acc.Acc}
    (h : HRounds dm (accBounded bits) c c') : HRounds dm accBuffered c c' := by
  induction h with
  | refl => exact .refl
  | step h _ ih => exact .step h.unbounded ih

theorem HLast.unbounded {bits : Nat} {dm : Demuxer D Acc.Acc} {c c' : Context D Acc.Acc} {x}
    (h : HLast dm (accBounded bits) c x c') : HLast dm accBuffered c x c' := by
  cases h with
  | readError h1 => exact .readError h1
  | error h1 h2 h3 => exact .error h1 h2 h3
  | accepted h1 h2 h3 => exact .accepted h1 h2 h3

/-- C109, what is true, part 1: whatever `read_event` and `read_headers` return over the reader that cannot
grow beyond `isize::MAX` bytes, they return over the unbounded one of the other properties. -/
theorem c109_same (bits : Nat) (dm : Demuxer D Acc.Acc) (c : Context D Acc.Acc) :
    (∀ fuel x c', readEvent dm (accBounded bits) fuel c = .ok (x, c') →
      ∃ fuel', readEvent dm accBuffered fuel' c = .ok (x, c')) ∧
    (∀ fuel x c', readHeaders dm (accBounded bits) fuel c = .ok (x, c') →
      ∃ fuel', readHeaders dm accBuffered fuel' c = .ok (x, c')) := by
  constructor
  · intro fuel x c' h
    obtain ⟨c0, h1, h2⟩ := readEvent_spec fuel h
    obtain ⟨N, hN⟩ := h1.unbounded.complete (h2.imp (·.unbounded) (·.unbounded))
    exact ⟨N, hN N (Nat.le_refl _)⟩
  · intro fuel x c' h
    obtain ⟨c0, h1, h2⟩ := readHeaders_spec fuel h
    obtain ⟨N, hN⟩ := h1.unbounded.complete h2.unbounded
    exact ⟨N, hN N (Nat.le_refl _)⟩

/-- C109, what is true, part 2: over an `AccReader` in any state it can get into, used by the demuxer through
its functions, `read_event` panics exactly when after some rounds the demuxer panics, or asks for more than is
buffered and the buffer with that many bytes added exceeds `isize::MAX`. -/
theorem c109_readEvent (bits : Nat) (dm : Demuxer D Acc.Acc) (hd : UsesApi dm) (dat : List U8) (cap : Nat)
    (script : Nat → Act) (ops : List Acc.Op) (os : List Acc.Out) (c : Context D Acc.Acc)
    (hr : Acc.Reachable dat cap script ops os c.reader) (p : Panic) (hp : p ≠ .fuel) :
    (∃ fuel, readEvent dm (accBounded bits) fuel c = .error p) ↔
    ∃ c0, Rounds dm (accBounded bits) c c0 ∧ (dm.readEvent c0.demuxer c0.reader = .error p ∨
      ∃ n c1 w, Asks dm (accBounded bits) c0 n c1 ∧ Acc.data c1.reader = .ok w ∧ w.length < n ∧
        2 ^ (bits - 1) ≤ c1.reader.buf.length + n ∧ p = tooLarge bits (c1.reader.buf.length + n)) := by
  rw [c108_readEvent c p hp]
  constructor
  · rintro ⟨c0, h1, h2⟩
    have hi := h1.unbounded.inv hd hr.inv.1
    refine ⟨c0, h1, ?_⟩
    cases h2 with
    | demuxer h => exact .inl h
    | seek a b =>
      obtain ⟨_, _, _, hrun⟩ := hd.1 _ _ _ _ _ a
      obtain ⟨x, r', s1, _⟩ := Acc.seek_spec (run_inv hi hrun).1 _
      rw [show (accBounded bits).seek = Acc.seek from rfl, s1] at b
      cases b
    | data a b =>
      rw [show (accBounded bits).data = Acc.data from rfl, Acc.data_ok (a.unbounded.inv hd hi)] at b
      cases b
    | @grow n c1 w a b e f =>
      rw [show (accBounded bits).grow = growBounded bits from rfl, growBounded_eq] at f
      split at f
      · rename_i hl; cases f; exact .inr ⟨n, c1, w, a, b, e, hl, rfl⟩
      · cases f
    | fill a b e f g =>
      cases growBounded_ok f
      obtain ⟨x, r', s1, _⟩ := Acc.fillBuf_spec (Acc.grow_inv (a.unbounded.inv hd hi) _).1
      rw [show (accBounded bits).fillBuf = Acc.fillBuf from rfl, s1] at g
      cases g
    | filled a b e f g i =>
      cases growBounded_ok f
      rw [show (accBounded bits).data = Acc.data from rfl,
        Acc.data_ok (fill_grown (a.unbounded.inv hd hi) g).1.inv] at i
      cases i
  · rintro ⟨c0, h1, h2 | ⟨n, c1, w, a, b, e, f, rfl⟩⟩
    · exact ⟨c0, h1, .demuxer h2⟩
    · refine ⟨c0, h1, .grow a b e ?_⟩
      rw [show (accBounded bits).grow = growBounded bits from rfl, growBounded_eq, if_pos f]

theorem HRound.inv {dat : List U8} {dm : Demuxer D Acc.Acc} (hd : UsesApi dm) {c c' : Context D Acc.Acc}
    (h : HRound dm accBuffered c c') (hi : Acc.Inv dat c.reader) : Acc.Inv dat c'.reader := by
  cases h with
  | mk h1 h2 h3 =>
    obtain ⟨x, r', s1, s2⟩ := Acc.fillBuf_spec hi
    rw [show accBuffered.fillBuf = Acc.fillBuf from rfl, s1] at h1
    cases h1
    obtain ⟨_, _, _, hrun⟩ := hd.2 _ _ _ _ _ _ _ h2
    cases h3
    exact (Acc.grow_inv (run_inv s2.inv hrun).1 _).1

theorem HRounds.inv {dat : List U8} {dm : Demuxer D Acc.Acc} (hd : UsesApi dm) {c c' : Context D Acc.Acc}
    (h : HRounds dm accBuffered c c') (hi : Acc.Inv dat c.reader) : Acc.Inv dat c'.reader := by
  induction h with
  | refl => exact hi
  | step h _ ih => exact ih (h.inv hd hi)

/-- C109, what is true, part 3: the same for `read_headers`, which grows the buffer at every request. -/
theorem c109_readHeaders (bits : Nat) (dm : Demuxer D Acc.Acc) (hd : UsesApi dm) (dat : List U8) (cap : Nat)
    (script : Nat → Act) (ops : List Acc.Op) (os : List Acc.Out) (c : Context D Acc.Acc)
    (hr : Acc.Reachable dat cap script ops os c.reader) (p : Panic) (hp : p ≠ .fuel) :
    (∃ fuel, readHeaders dm (accBounded bits) fuel c = .error p) ↔
    ∃ c0 l r, HRounds dm (accBounded bits) c c0 ∧ Acc.fillBuf c0.reader = .ok (.ok l, r) ∧
      (dm.readHeaders c0.demuxer r c0.info = .error p ∨
      ∃ n d r' info, dm.readHeaders c0.demuxer r c0.info = .ok (.error (.MoreDataNeeded n), d, r', info) ∧
        2 ^ (bits - 1) ≤ r'.buf.length + n ∧ p = tooLarge bits (r'.buf.length + n)) := by
  rw [c108_readHeaders c p hp]
  constructor
  · rintro ⟨c0, h1, h2⟩
    have hi := h1.unbounded.inv hd hr.inv.1
    obtain ⟨x, r0, s1, s2⟩ := Acc.fillBuf_spec hi
    cases h2 with
    | fill a =>
      rw [show (accBounded bits).fillBuf = Acc.fillBuf from rfl, s1] at a
      cases a
    | @demuxer l r a b => exact ⟨c0, l, r, h1, a, .inl b⟩
    | @seek l r sk d r' info a b e =>
      rw [show (accBounded bits).fillBuf = Acc.fillBuf from rfl, s1] at a
      cases a
      obtain ⟨_, _, _, hrun⟩ := hd.2 _ _ _ _ _ _ _ b
      obtain ⟨x, r'', s3, _⟩ := Acc.seek_spec (run_inv s2.inv hrun).1 sk
      rw [show (accBounded bits).seek = Acc.seek from rfl, s3] at e
      cases e
    | @grow l r n d r' info a b e =>
      rw [show (accBounded bits).grow = growBounded bits from rfl, growBounded_eq] at e
      split at e
      · rename_i hl; cases e; exact ⟨c0, l, r, h1, a, .inr ⟨n, d, r', info, b, hl, rfl⟩⟩
      · cases e
  · rintro ⟨c0, l, r, h1, a, h2 | ⟨n, d, r', info, b, f, rfl⟩⟩
    · exact ⟨c0, h1, .demuxer a h2⟩
    · refine ⟨c0, h1, .grow a b ?_⟩
      rw [show (accBounded bits).grow = growBounded bits from rfl, growBounded_eq, if_pos f]

/-- A format of records whose first eight bytes, little-endian, are their length: the demuxer asks for what is
missing of the record at the front. -/
def lengthDemuxer : Demuxer Unit Acc.Acc :=
  windowDemuxer (fun d info _ => (.ok (.current 0), d, info)) (fun d w =>
    let n := (w.take 8).foldr (fun b v => v * 256 + b.toNat) 0
    (if w.length < 8 then .error (.MoreDataNeeded 8)
     else if w.length < n then .error (.MoreDataNeeded n)
     else .ok (.current n, .Continue), d))

/-- A reader over the given bytes. -/
def lengthContext (l : List U8) : Context Unit Acc.Acc :=
  Context.new () (Acc.withCapacity 8 ⟨l, 0, fun _ => ⟨none, 8⟩, 0⟩)

/-- C109 is false: of a demuxer that asks for as many bytes as a length field says, two files of eight bytes
make `read_event` panic, in the addition and in the allocation; on a target of 32 bits a length of 2 GiB does. -/
theorem c109_fails : UsesApi lengthDemuxer ∧
    readEvent lengthDemuxer (accBounded 64) 9 (lengthContext [255, 255, 255, 255, 255, 255, 255, 255]) =
      .error .overflow ∧
    readEvent lengthDemuxer (accBounded 64) 9 (lengthContext [0, 0, 0, 0, 0, 0, 0, 128]) = .error .explicit ∧
    readEvent lengthDemuxer (accBounded 32) 9 (lengthContext [0, 0, 0, 128, 0, 0, 0, 0]) = .error .explicit ∧
    readEvent lengthDemuxer (accBounded 32) 9 (lengthContext [248, 255, 255, 255, 0, 0, 0, 0]) = .error .overflow :=
  ⟨windowDemuxer_api _ _, by rfl, by rfl, by rfl, by rfl⟩

example : Acc.Reachable [2, 0, 0, 0, 0, 0, 0, 128] 8 (fun _ => ⟨none, 8⟩) [] []
      (lengthContext [2, 0, 0, 0, 0, 0, 0, 128]).reader ∧
    (∃ fuel, readEvent lengthDemuxer (accBounded 64) fuel (lengthContext [2, 0, 0, 0, 0, 0, 0, 128]) = .error .explicit) ∧
    (∃ c', readEvent lengthDemuxer (accBounded 64) 9 (lengthContext [9, 0, 0, 0, 0, 0, 0, 0, 1]) =
      .ok (.ok .Continue, c')) ∧
    ∃ c', readEvent lengthDemuxer (accBounded 64) 9 (lengthContext [10, 0, 0, 0, 0, 0, 0, 0, 1]) = .ok (.ok .Eof, c') :=
  ⟨⟨_, 0, rfl, rfl, rfl, rfl⟩, ⟨9, rfl⟩, ⟨_, rfl⟩, _, rfl⟩

end Verif.Demux
