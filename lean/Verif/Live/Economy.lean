import Verif.Live.Calls
import Verif.Live.Poll

/-!
# Property C150: how often demuxing asks the reader

`read_event` enlarges the buffer by the whole request and fills it up, so that every read but the last brings more bytes
than the buffer had room for before.
-/

namespace Verif.Live
open Verif Verif.Io Verif.Acc Verif.Frame Verif.Stream Verif.Packet Verif.Demux Verif.RoundTrip

variable {R D : Type} {dev : Dev R}

/-- Calls that said the data ran out. -/
def isEof : Except Err Event → Nat
  | .ok .Eof => 1
  | _ => 0

/-- What the reads of a stream with so much left are paid from, if each brings more than `S` bytes or all. -/
def purse (dat : List U8) (at' : R → Nat) (S : Nat) (s : R) : Nat :=
  (dat.length - at' s) / (S + 1) + if at' s < dat.length then 1 else 0

theorem grow_enlarges {r : LAcc R} (h : Tidy r) (n : Nat) : Tidy (grow r n) ∧
    view (grow r n) = ⟨r.inner, win r, r.buf.length + n, r.index⟩ := by
  have h1 := h.1
  have h2 := h.2
  refine ⟨⟨h1, by simp only [grow, List.length_append, List.length_replicate]; omega⟩, ?_⟩
  simp only [view, grow, Queue.mk.injEq, true_and, and_true, List.length_append, List.length_replicate]
  simp only [win]
  rw [List.drop_append_of_le_length (by omega), List.take_append_of_le_length (by rw [List.length_drop]; omega)]

/-- One request: one read, paid for, or nothing is left. -/
theorem request_pays {dat : List U8} {at' : R → Nat} (hp : Prompt dev dat at') {r : LAcc (R × Nat)} (ht : Tidy r) (S n : Nat)
    (hS : S ≤ r.buf.length) (hn : (win r).length < n) :
    ∃ l r', fillBuf (counted dev) (grow r n) = .ok (.ok l, r') ∧ Tidy r' ∧ S ≤ r'.buf.length ∧
      r'.inner.2 = r.inner.2 + 1 ∧
      (purse dat at' S r'.inner.1 + 1 ≤ purse dat at' S r.inner.1 ∨
        (win r').length = (win r).length ∧ purse dat at' S r'.inner.1 = purse dat at' S r.inner.1) := by
  obtain ⟨g1, g2⟩ := grow_enlarges ht n
  obtain ⟨r', a1, a2, a3⟩ := fill_does (counted_bounded hp.bounded) g1
  rw [g2] at a1 a3
  have hle : (win r).length ≤ r.buf.length := by rw [ht.length]; have := ht.2; omega
  have hroom : (win r).length < r.buf.length + n := by omega
  have hr : (counted dev).read r.inner (r.buf.length + n - (win r).length) =
      (.ok ((dat.drop (at' r.inner.1)).take (r.buf.length + n - (win r).length)),
        (dev.read r.inner.1 (r.buf.length + n - (win r).length)).2, r.inner.2 + 1) := by
    simp only [counted, hp.read]
  have hs := hp.step r.inner.1 (r.buf.length + n - (win r).length)
  have hf : Queue.fill (counted dev) ⟨r.inner, win r, r.buf.length + n, r.index⟩ =
      (.ok (win r ++ (dat.drop (at' r.inner.1)).take (r.buf.length + n - (win r).length)),
        ⟨((dev.read r.inner.1 (r.buf.length + n - (win r).length)).2, r.inner.2 + 1),
          win r ++ (dat.drop (at' r.inner.1)).take (r.buf.length + n - (win r).length), r.buf.length + n, r.index⟩) := by
    simp only [Queue.fill, if_pos hroom, hr]
  rw [hf] at a1 a3
  simp only at a1 a3
  have hml : ((dat.drop (at' r.inner.1)).take (r.buf.length + n - (win r).length)).length =
      min (r.buf.length + n - (win r).length) (dat.length - at' r.inner.1) := by
    rw [List.length_take, List.length_drop]
  rw [hml] at hs
  have e1 : r'.inner = ((dev.read r.inner.1 (r.buf.length + n - (win r).length)).2, r.inner.2 + 1) :=
    congrArg Queue.inner a3
  have e2 : win r' = win r ++ (dat.drop (at' r.inner.1)).take (r.buf.length + n - (win r).length) := congrArg Queue.q a3
  have e3 : r'.buf.length = r.buf.length + n := congrArg Queue.size a3
  refine ⟨_, r', a1, a2, by omega, by rw [e1], ?_⟩
  rw [e1, e2]
  simp only [List.length_append, hml, purse, hs]
  generalize hrest : dat.length - at' r.inner.1 = rest at *
  generalize hrm : r.buf.length + n - (win r).length = room at *
  have hbig : S + 1 ≤ room := by omega
  by_cases h0 : rest = 0
  · right
    subst h0
    exact ⟨by omega, by rw [Nat.min_zero, Nat.add_zero, hrest]⟩
  · left
    rw [if_pos (show at' r.inner.1 < dat.length by omega)]
    by_cases h1 : rest ≤ room
    · rw [Nat.min_eq_right h1, if_neg (by omega), show dat.length - (at' r.inner.1 + rest) = 0 by omega, Nat.zero_div]
      exact Nat.le_add_left _ _
    · rw [Nat.min_eq_left (by omega), if_pos (by omega), show dat.length - (at' r.inner.1 + room) = rest - room by omega]
      have h2 : (rest - room) / (S + 1) + 1 ≤ rest / (S + 1) := by
        rw [← Nat.add_div_right _ (by omega : 0 < S + 1)]
        exact Nat.div_le_div_right (by omega)
      omega

theorem skip_free {r : LAcc R} (ht : Tidy r) (hb : Bounded dev) (k : Nat) (hk : k ≤ (win r).length) :
    ∃ m r', seek dev r (.current k) = .ok (.ok m, r') ∧ Tidy r' ∧ r'.inner = r.inner ∧
      r'.buf.length = r.buf.length ∧ win r' = (win r).drop k := by
  obtain ⟨r', a1, a2, a3⟩ := seek_does hb ht (.current k)
  have e : (view r).seek dev (.current k) = (.ok ((view r).pos + k), (view r).take k) := by
    simp only [Queue.seek]
    rw [if_neg (by omega), if_pos (show (k : Int).toNat ≤ (view r).q.length from hk)]
    rfl
  rw [e] at a1 a3
  exact ⟨_, r', a1, a2, congrArg Queue.inner a3, congrArg Queue.size a3, congrArg Queue.q a3⟩

theorem event_of (F : Format D) {c : Context D (LAcc R)} (ht : Tidy c.reader) :
    (demuxer F).readEvent c.demuxer c.reader = .ok (match F.parse c.demuxer (win c.reader) with
      | some (k, ev, d') => (.ok (.current k, ev), d', c.reader)
      | none => (.error (.MoreDataNeeded (F.need c.demuxer (win c.reader))), c.demuxer, c.reader)) := by
  simp only [demuxer, ht.data, ok_bind, pure_eq_ok]
  cases F.parse c.demuxer (win c.reader) <;> rfl

/-- One round of the loop up to its answer: nothing asked. -/
theorem internal_free (F : Format D) (hf : F.Fits) (hb : Bounded dev) {c : Context D (LAcc R)} (ht : Tidy c.reader) :
    ∃ x c', readEventInternal (demuxer F) (buffered dev) c = .ok (x, c') ∧ Tidy c'.reader ∧
      c'.reader.inner = c.reader.inner ∧ c'.reader.buf.length = c.reader.buf.length := by
  unfold readEventInternal
  rw [event_of F ht]
  cases hp : F.parse c.demuxer (win c.reader) with
  | none => exact ⟨_, _, rfl, ht, rfl, rfl⟩
  | some v =>
    obtain ⟨k, ev, d'⟩ := v
    obtain ⟨m, r', a1, a2, a3, a4, _⟩ := skip_free ht hb k (hf.parse _ _ _ _ _ hp)
    have a1' : (buffered dev).seek c.reader (.current k) = .ok (.ok m, r') := a1
    simp only [ok_bind, a1']
    cases ev <;> exact ⟨_, _, rfl, a2, a3, a4⟩

theorem event_pays {dat : List U8} {at' : R → Nat} (hp : Prompt dev dat at') (F : Format D) (hf : F.Fits) (S : Nat) :
    ∀ (fuel : Nat) (c : Context D (LAcc (R × Nat))) (x : Except Err Event) (c' : Context D (LAcc (R × Nat))),
      Tidy c.reader → S ≤ c.reader.buf.length →
      readEvent (demuxer F) (buffered (counted dev)) fuel c = .ok (x, c') →
      Tidy c'.reader ∧ S ≤ c'.reader.buf.length ∧
      c'.reader.inner.2 + purse dat at' S c'.reader.inner.1 ≤
        c.reader.inner.2 + purse dat at' S c.reader.inner.1 + isEof x := by
  intro fuel
  induction fuel with
  | zero => intro c x c' _ _ h; cases h
  | succ fuel ih =>
    intro c x c' ht hS h
    obtain ⟨y, c1, a1, a2, a3, a4⟩ := internal_free F hf (counted_bounded hp.bounded) ht
    simp only [readEvent, a1, ok_bind] at h
    have stop : ∀ z, (.ok (z, c1) : Rust _) = .ok (x, c') → Tidy c'.reader ∧ S ≤ c'.reader.buf.length ∧
        c'.reader.inner.2 + purse dat at' S c'.reader.inner.1 ≤
          c.reader.inner.2 + purse dat at' S c.reader.inner.1 + isEof x := by
      intro z hz
      cases hz
      exact ⟨a2, by omega, by rw [a3]; omega⟩
    cases y with
    | ok ev => exact stop _ h
    | error e =>
      cases e with
      | MoreDataNeeded n =>
        have hd : (buffered (counted dev)).data c1.reader = .ok (win c1.reader) := a2.data
        simp only [hd, ok_bind] at h
        by_cases hn : (win c1.reader).length ≥ n
        · rw [if_pos hn] at h
          obtain ⟨b1, b2, b3⟩ := ih c1 x c' a2 (by omega) h
          rw [a3] at b3
          exact ⟨b1, b2, b3⟩
        · rw [if_neg hn] at h
          obtain ⟨l, r', f1, f2, f3, f4, f5⟩ := request_pays hp a2 S n (by omega) (by omega)
          have hg : (buffered (counted dev)).grow c1.reader n = .ok (grow c1.reader n) := rfl
          have f1' : (buffered (counted dev)).fillBuf (grow c1.reader n) = .ok (.ok l, r') := f1
          have hd' : (buffered (counted dev)).data r' = .ok (win r') := f2.data
          simp only [hg, f1', hd', ok_bind] at h
          by_cases hw : (win r').length ≤ (win c1.reader).length
          · rw [if_pos hw] at h
            cases h
            refine ⟨f2, f3, ?_⟩
            change r'.inner.2 + purse dat at' S r'.inner.1 ≤ _ + 1
            rw [← a3, f4]
            omega
          · rw [if_neg hw] at h
            obtain ⟨b1, b2, b3⟩ := ih _ x c' f2 f3 h
            refine ⟨b1, b2, ?_⟩
            have b3' : c'.reader.inner.2 + purse dat at' S c'.reader.inner.1 ≤
              r'.inner.2 + purse dat at' S r'.inner.1 + isEof x := b3
            rw [← a3]
            omega
      | _ => exact stop _ h

theorem events_pay {dat : List U8} {at' : R → Nat} (hp : Prompt dev dat at') (F : Format D) (hf : F.Fits) (S fuel : Nat) :
    ∀ (n : Nat) (c : Context D (LAcc (R × Nat))) (xs : List (Except Err Event)) (c' : Context D (LAcc (R × Nat))),
      Tidy c.reader → S ≤ c.reader.buf.length →
      readEvents (demuxer F) (buffered (counted dev)) fuel n c = .ok (xs, c') →
      c'.reader.inner.2 + purse dat at' S c'.reader.inner.1 ≤
        c.reader.inner.2 + purse dat at' S c.reader.inner.1 + (xs.map isEof).sum := by
  intro n
  induction n with
  | zero => intro c xs c' _ _ h; cases h; exact Nat.le_refl _
  | succ n ih =>
    intro c xs c' ht hS h
    simp only [readEvents] at h
    cases h1 : readEvent (demuxer F) (buffered (counted dev)) fuel c with
    | error p => rw [h1] at h; cases h
    | ok v =>
      obtain ⟨x, c1⟩ := v
      rw [h1] at h
      simp only [ok_bind] at h
      cases h2 : readEvents (demuxer F) (buffered (counted dev)) fuel n c1 with
      | error p => rw [h2] at h; cases h
      | ok w =>
        obtain ⟨ys, c2⟩ := w
        rw [h2] at h
        cases h
        obtain ⟨b1, b2, b3⟩ := event_pays hp F hf S fuel c x c1 ht hS h1
        have b4 := ih c1 ys c2 b1 b2 h2
        simp only [List.map_cons, List.sum_cons]
        omega

theorem headers_tidy (F : Format D) (hf : F.Fits) (hb : Bounded dev) :
    ∀ (fuel : Nat) (c : Context D (LAcc R)) (x : Except Err Unit) (c' : Context D (LAcc R)), Tidy c.reader →
      readHeaders (demuxer F) (buffered dev) fuel c = .ok (x, c') →
      Tidy c'.reader ∧ c.reader.buf.length ≤ c'.reader.buf.length := by
  intro fuel
  induction fuel with
  | zero => intro c x c' _ h; cases h
  | succ fuel ih =>
    intro c x c' ht h
    obtain ⟨r, a1, a2, a3⟩ := fill_does hb ht
    have hsz : r.buf.length = c.reader.buf.length := by
      have e : r.buf.length = ((view c.reader).fill dev).2.size := congrArg Queue.size a3
      rw [e]
      unfold Queue.fill
      split
      · split <;> rfl
      · rfl
    have a1' : (buffered dev).fillBuf c.reader = .ok (((view c.reader).fill dev).1, r) := a1
    simp only [readHeaders, a1', ok_bind] at h
    cases hx : ((view c.reader).fill dev).1 with
    | error e =>
      rw [hx] at h
      cases h
      exact ⟨a2, by simp only; omega⟩
    | ok l =>
      rw [hx] at h
      simp only [readHeadersInternal] at h
      have hc : (demuxer F).readHeaders c.demuxer r c.info = .ok (match F.head c.demuxer c.info (win r) with
          | some (k, d', i') => (.ok (.current k), d', r, i')
          | none => (.error (.MoreDataNeeded (F.headNeed c.demuxer c.info (win r))), c.demuxer, r, c.info)) := by
        simp only [demuxer, a2.data, ok_bind, pure_eq_ok]
        cases F.head c.demuxer c.info (win r) <;> rfl
      rw [hc] at h
      cases hh : F.head c.demuxer c.info (win r) with
      | some v =>
        obtain ⟨k, d', i'⟩ := v
        rw [hh] at h
        obtain ⟨m, r', b1, b2, _, b4, _⟩ := skip_free a2 hb k (hf.head _ _ _ _ _ _ hh)
        have b1' : (buffered dev).seek r (.current k) = .ok (.ok m, r') := b1
        simp only [ok_bind, b1', pure_eq_ok] at h
        cases h
        exact ⟨b2, by simp only; omega⟩
      | none =>
        rw [hh] at h
        simp only [ok_bind] at h
        have hg : ∀ k, (buffered dev).grow r k = .ok (grow r k) := fun _ => rfl
        simp only [hg, ok_bind] at h
        obtain ⟨b1, b2⟩ := ih _ x c' (grow_enlarges a2 _).1 h
        refine ⟨b1, Nat.le_trans ?_ b2⟩
        simp only [grow, List.length_append, List.length_replicate]; omega

/-- **C150, records that are there.** After any history over any reader whose reads return no more than asked for: if what is
buffered holds the next record, `read_event` does not ask the reader. -/
theorem c150_buffered (F : Format D) (hF : F.Framed) (hf : F.Fits) (hb : Bounded dev) (s : R) (cap fuel : Nat)
    (cs : List (Call R)) (os : List Out) (c : Context D (LAcc R))
    (h : runCalls dev fuel (withCapacity cap s) cs = .ok (os, c.reader)) (w : List U8) (hw : data c.reader = .ok w)
    (k : Nat) (ev : Event) (d' : D) (hrec : F.parse c.demuxer w = some (k, ev, d')) (fuel' : Nat) :
    ∃ c', readEvent (demuxer F) (buffered dev) (fuel' + 1) c = .ok (.ok (completed c.info.streams ev), c') ∧
      c'.reader.inner = c.reader.inner ∧ data c'.reader = .ok (w.drop k) := by
  have ht := tidy_of_run hb h
  rw [ht.data] at hw
  cases hw
  obtain ⟨m, r', a1, a2, a3, a4, a5⟩ := skip_free ht hb k (hf.parse _ _ _ _ _ hrec)
  have hcall := event_of F ht
  rw [hrec] at hcall
  have hd := deliver c.info.streams ev (fun n => hF.answers _ _ _ _ _ n hrec)
  have hans : Answers (demuxer F) (buffered dev) c _ _ := .event hcall a1 hd
  exact ⟨_, readEvent_answers fuel' hans, a3, by rw [← a5]; exact a2.data⟩

/-- **C150, all calls.** Over a reader that returns what is asked for until the end of its stream, for every format whose
records lie within the bytes they are recognised in, whatever it asks for and however often: any number of calls of
`read_event` on a context whose headers are read ask the reader at most once for every `size + 1` bytes that it has left, once
more, and once for every `Eof` returned; `size` is the buffer's size when the headers have been read. -/
theorem c150_amortised {dat : List U8} {at' : R → Nat} (hp : Prompt dev dat at') (F : Format D) (hf : F.Fits) (s : R)
    (cap fuel n : Nat) (d : D) (h : Except Err Unit) (xs : List (Except Err Event)) (c1 c2 : Context D (LAcc (R × Nat)))
    (h1 : readHeaders (demuxer F) (buffered (counted dev)) fuel (Context.new d (withCapacity cap (s, 0))) = .ok (h, c1))
    (h2 : readEvents (demuxer F) (buffered (counted dev)) fuel n c1 = .ok (xs, c2)) :
    cap ≤ c1.reader.buf.length ∧
    c2.reader.inner.2 ≤ c1.reader.inner.2 + (dat.length - at' c1.reader.inner.1) / (c1.reader.buf.length + 1) +
      (if at' c1.reader.inner.1 < dat.length then 1 else 0) + (xs.map isEof).sum := by
  obtain ⟨a1, a2⟩ := headers_tidy F hf (counted_bounded hp.bounded) fuel _ h c1 (withCapacity_tidy cap (s, 0)).1 h1
  have a3 := events_pay hp F hf c1.reader.buf.length fuel n c1 xs c2 a1 (Nat.le_refl _) h2
  have a2' : cap ≤ c1.reader.buf.length := by simpa [Context.new, withCapacity] using a2
  refine ⟨a2', ?_⟩
  have hpos : 0 ≤ purse dat at' c1.reader.buf.length c2.reader.inner.1 := Nat.zero_le _
  generalize purse dat at' c1.reader.buf.length c2.reader.inner.1 = z at a3 hpos
  unfold purse at a3
  omega

/- Twelve records of two bytes behind a header of two, through a buffer of four, fifteen calls: one read for the header; then
the bound is 22 / 5 + 1 + 3 calls, and four and one for each `Eof` are made. -/
def twelve : List U8 := [65, 86] ++ (List.replicate 12 [1, 7]).flatten

example : avFormat.Fits ∧ (match readHeaders (demuxer avFormat) (buffered (counted (memory twelve))) 9
      (Context.new () (withCapacity 4 (0, 0))) with
    | .ok (.ok (), c1) =>
      match readEvents (demuxer avFormat) (buffered (counted (memory twelve))) 9 15 c1 with
      | .ok (xs, c2) => (c1.reader.inner, c1.reader.buf.length, c2.reader.inner, (xs.map isEof).sum)
      | _ => ((0, 0), 0, (0, 0), 0)
    | _ => ((0, 0), 0, (0, 0), 0)) = ((4, 1), 4, (26, 8), 3) := ⟨av_fits, by decide +kernel⟩

/-- C150: the bound is attained, by two records of which the second is read after the header, and two calls after them. -/
theorem c150_attained : ∃ xs c1 c2,
    readHeaders (demuxer avFormat) (buffered (counted (memory [65, 86, 1, 7, 1, 7]))) 9 (Context.new () (withCapacity 4 (0, 0))) =
      .ok (.ok (), c1) ∧
    readEvents (demuxer avFormat) (buffered (counted (memory [65, 86, 1, 7, 1, 7]))) 9 4 c1 = .ok (xs, c2) ∧
    c1.reader.inner = (4, 1) ∧ c1.reader.buf.length = 4 ∧
    c2.reader.inner.2 = 1 + (6 - 4) / (4 + 1) + 1 + (xs.map isEof).sum ∧ c2.reader.inner.2 = 4 :=
  ⟨_, _, _, rfl, rfl, rfl, rfl, by decide +kernel, by decide +kernel⟩

end Verif.Live
