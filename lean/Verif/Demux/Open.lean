import Verif.Demux.Framing
import Verif.Demux.Probe

/-!
# Property C145: opening a file by probing it

The program in front of every demuxing: an `AccReader` is made over the file, filled, `probe` is shown what is buffered, and the
demuxing context is made of the demuxer it chooses and the same `AccReader`.
-/

namespace Verif.Demux
open Verif Verif.Io Verif.Frame Verif.Stream Verif.Packet

variable {D : Type}

/-- Calls of `fill_buf` until one shows no more than was buffered. -/
def fillUp : Nat → Acc.Acc → Rust (Except IoErr (List U8) × Acc.Acc)
  | 0, _ => .error .fuel
  | fuel + 1, r => do
    let len := (← Acc.data r).length
    let (x, r) ← Acc.fillBuf r
    match x with
    | .error e => .ok (.error e, r)
    | .ok w => if w.length ≤ len then .ok (.ok w, r) else fillUp fuel r

/-- How opening a file ends: the reader fails, no format is recognised, reading the headers fails, or a context that has read
the headers. -/
inductive Opened (D : Type)
  | io (e : IoErr) (r : Acc.Acc) | unknown (r : Acc.Acc) | failed (e : Err) (c : Context D Acc.Acc) | opened (c : Context D Acc.Acc)

/-- The program; `look` fills the buffer and returns what is shown to `probe`. -/
def openFile (dm : Demuxer D Acc.Acc) (look : Acc.Acc → Rust (Except IoErr (List U8) × Acc.Acc)) (ds : List (Descriptor D))
    (fuel : Nat) (r : Acc.Acc) : Rust (Opened D) := do
  let (x, r) ← look r
  match x with
  | .error e => .ok (.io e r)
  | .ok w =>
    match probe ds w with
    | none => .ok (.unknown r)
    | some desc => do
      let (y, c) ← readHeaders dm accBuffered fuel (Context.new desc.create r)
      match y with
      | .error e => .ok (.failed e c)
      | .ok () => .ok (.opened c)

theorem win_le_buf {dat : List U8} {r : Acc.Acc} (h : Acc.Inv dat r) : (Acc.win r).length ≤ r.buf.length := by
  rw [Acc.win_length h]; have := h.eb; omega

theorem fillUp_spec (dat : List U8) : ∀ (a : Nat) (r : Acc.Acc), Acc.Inv dat r → r.buf.length - (Acc.win r).length ≤ a →
    ∃ x r', fillUp (a + 1) r = .ok (x, r') ∧ Acc.Inv dat r' ∧ r'.index = r.index ∧ r'.buf.length = r.buf.length ∧
      r'.inner.script = r.inner.script ∧
      (x = .ok ((dat.drop r.index).take r.buf.length) ∧ Acc.win r' = (dat.drop r.index).take r.buf.length ∨
        ∃ e k, x = .error e ∧ (r.inner.script k).fail = some e) := by
  intro a
  induction a with
  | zero =>
    intro r hi ha
    obtain ⟨x, r', f1, f⟩ := Acc.fillBuf_spec hi
    have hb := win_le_buf hi
    simp only [fillUp, Acc.data_ok hi, ok_bind, f1]
    cases x with
    | error e => exact ⟨_, _, rfl, f.inv, f.index, f.len, f.script, .inr ⟨e, _, rfl, (f.error e rfl).2.1⟩⟩
    | ok w =>
      obtain ⟨t1, t2, _⟩ := f.shown w rfl
      have hb' := win_le_buf f.inv
      rw [f.len] at hb'
      have hl : w.length ≤ (Acc.win r).length := by rw [t1]; omega
      have hw : w = (dat.drop r.index).take r.buf.length := by
        have hat := f.inv.at
        rw [f.index, ← t1] at hat
        rw [show r.buf.length = w.length by have := t2.length_le; rw [t1] at this ⊢; omega]
        exact hat
      simp only [if_pos hl]
      exact ⟨_, _, rfl, f.inv, f.index, f.len, f.script, .inl ⟨by rw [hw], by rw [← t1, hw]⟩⟩
  | succ a ih =>
    intro r hi ha
    obtain ⟨x, r', f1, f⟩ := Acc.fillBuf_spec hi
    have hb := win_le_buf hi
    rw [fillUp]
    simp only [Acc.data_ok hi, ok_bind, f1]
    cases x with
    | error e => exact ⟨_, _, rfl, f.inv, f.index, f.len, f.script, .inr ⟨e, _, rfl, (f.error e rfl).2.1⟩⟩
    | ok w =>
      obtain ⟨t1, t2, t3⟩ := f.shown w rfl
      by_cases hl : w.length ≤ (Acc.win r).length
      · have he : w = Acc.win r := (t2.eq_of_length_le hl).symm
        have hat := hi.at
        have hw : w = (dat.drop r.index).take r.buf.length := by
          rw [he]
          rw [hat, List.take_eq_take_iff, List.length_drop]
          by_cases hroom : (Acc.win r).length < r.buf.length
          · have := t3 he hroom; omega
          · omega
        simp only [if_pos hl]
        exact ⟨_, _, rfl, f.inv, f.index, f.len, f.script, .inl ⟨by rw [hw], by rw [← t1, hw]⟩⟩
      · simp only [if_neg hl]
        obtain ⟨x, r2, g1, g2, g3, g4, g5, g6⟩ := ih r' f.inv (by rw [f.len, ← t1]; omega)
        rw [f.index, f.len, f.script] at *
        exact ⟨x, r2, g1, g2, g3, g4, g5, g6⟩

/-- **C145, what is shown to `probe`.** After any history of an `AccReader` over a reader that gives any few bytes at a time,
filling it up either fails as the reader does or shows as many of the bytes that follow as fit in the buffer, or all of them. It
moves nothing: the position is the same, and another attempt after a failure shows the same. -/
theorem c145_seen (dat : List U8) (cap : Nat) (script : Nat → Act) (ops : List Acc.Op) (os : List Acc.Out) (r : Acc.Acc)
    (hr : Acc.Reachable dat cap script ops os r) (p : Nat) (hp : Acc.StandsAt dat r p) :
    ∃ x r', fillUp (cap + Acc.grown ops + 1) r = .ok (x, r') ∧ Acc.StandsAt dat r' p ∧
      (x = .ok ((dat.drop p).take (cap + Acc.grown ops)) ∨ ∃ e k, x = .error e ∧ (script k).fail = some e) := by
  obtain ⟨h1, _, h3, h4⟩ := hr.inv
  obtain ⟨x, r', f1, f2, f3, _, _, f6⟩ := fillUp_spec dat (cap + Acc.grown ops) r h1 (by omega)
  have hx := index_of_standsAt h1 hp
  refine ⟨x, r', f1, ?_, ?_⟩
  · have := f2.standsAt
    rwa [f3, hx] at this
  · rw [hx, h4, h3] at f6
    exact f6.imp (·.1) id

/-- What follows if the beginning of the file has been buffered and is shown to `probe`. -/
theorem open_shown (F : Format D) (hF : F.Framed) (ds : List (Descriptor D)) (dat w : List U8)
    (look : Acc.Acc → Rust (Except IoErr (List U8) × Acc.Acc)) (r0 r : Acc.Acc) (hl : look r0 = .ok (.ok w, r))
    (hi : Acc.Inv dat r) (hx : r.index = 0) (hs : ∀ k, (r.inner.script k).fail = none) :
    (probe ds w = none → ∃ r, openFile F.demuxer look ds (dat.length + 2) r0 = .ok (.unknown r) ∧ Acc.StandsAt dat r 0) ∧
    ∀ desc, probe ds w = some desc → ∀ k d' i', F.head desc.create ⟨none, none, []⟩ dat = some (k, d', i') →
      ∃ c, openFile F.demuxer look ds (dat.length + 2) r0 = .ok (.opened c) ∧ c.info = i' ∧
        ∀ n, ∃ c', readEvents F.demuxer accBuffered (dat.length + 1) n c =
          .ok ((F.events n d' i'.streams (dat.drop k)).map .ok, c') := by
  refine ⟨fun hn => ⟨r, ?_, ?_⟩, fun desc hp k d' i' hh => ?_⟩
  · simp only [openFile, hl, ok_bind, hn]
  · have := hi.standsAt
    rwa [hx] at this
  · obtain ⟨y, c, h1, h2, h3, h4⟩ := framed_headers F hF dat r.inner.script (.inr hs) (dat.length + 1)
      (Context.new desc.create r) k d' i' hi rfl (by
        change F.head desc.create ⟨none, none, []⟩ (dat.drop r.index) = _
        rw [hx]; exact hh) (by split <;> omega)
    rcases h4 with ⟨e, j, _, a2, _⟩ | ⟨rfl, a2, a3, a4⟩
    · rw [hs] at a2; cases a2
    · refine ⟨c, by simp only [openFile, hl, ok_bind, hp, h1], a3, fun n => ?_⟩
      obtain ⟨xs, c', g1, g2, g3, g4⟩ := framed_events F hF dat r.inner.script (.inr hs) (dat.length + 1) (by omega) n c h2 h3
      have hok : ∀ e, .error e ∉ xs := by
        intro e he
        obtain ⟨_, j, _, hj⟩ := g4 e he
        rw [hs] at hj; cases hj
      have hxs := filterMap_all_ok hok
      have hn : (xs.filterMap Except.toOption).length = n := by
        rw [← g2]; conv => rhs; rw [hxs]
        rw [List.length_map]
      refine ⟨c', ?_⟩
      rw [g1, hxs, g3, a2, a3, a4, show (Context.new desc.create r).reader.index = r.index from rfl, hx, hn, Nat.zero_add]

/-- **C145, which demuxer is chosen.** Opening a file this way, with any capacity and over a reader that gives any few bytes at a
time, chooses what `probe` says of the first bytes, as many as the capacity says. If it says nothing, the reader is given back
and stands at the beginning. If the file begins with headers of the chosen format, they are read, and what follows are the records
of the file: as if the demuxer had been made without probing. -/
theorem c145_open (F : Format D) (hF : F.Framed) (ds : List (Descriptor D)) (dat : List U8) (cap : Nat) (s : Source)
    (h0 : s.pos = 0) (hd : s.data = dat) (hs : ∀ k, (s.script k).fail = none) :
    (probe ds (dat.take cap) = none → ∃ r, openFile F.demuxer (fillUp (cap + 1)) ds (dat.length + 2) (Acc.withCapacity cap s) =
      .ok (.unknown r) ∧ Acc.StandsAt dat r 0) ∧
    ∀ desc, probe ds (dat.take cap) = some desc → ∀ k d' i', F.head desc.create ⟨none, none, []⟩ dat = some (k, d', i') →
      ∃ c, openFile F.demuxer (fillUp (cap + 1)) ds (dat.length + 2) (Acc.withCapacity cap s) = .ok (.opened c) ∧ c.info = i' ∧
        ∀ n, ∃ c', readEvents F.demuxer accBuffered (dat.length + 1) n c =
          .ok ((F.events n d' i'.streams (dat.drop k)).map .ok, c') := by
  subst hd
  have hi : Acc.Inv s.data (Acc.withCapacity cap s) := Acc.withCapacity_inv cap s h0
  obtain ⟨x, r, f1, f2, f3, f4, f5, f6⟩ := fillUp_spec s.data cap (Acc.withCapacity cap s) hi (by simp [Acc.withCapacity])
  have f5' : r.inner.script = s.script := f5
  have hx : x = .ok (s.data.take cap) := by
    rcases f6 with ⟨h, _⟩ | ⟨e, k, _, h⟩
    · simpa [Acc.withCapacity] using h
    · rw [show (Acc.withCapacity cap s).inner.script = s.script from rfl, hs] at h; cases h
  subst hx
  exact open_shown F hF ds s.data _ _ _ r f1 f2 f3 (f5' ▸ hs)

/-- **C145, default capacity.** An `AccReader` made by `AccReader::new` and filled up shows `probe` as much of the file as
`PROBE_DATA` says. -/
theorem c145_new (s : Source) (h0 : s.pos = 0) (hs : ∀ k, (s.script k).fail = none) :
    ∃ r, fillUp (PROBE_DATA + 1) (Acc.new s) = .ok (.ok (s.data.take PROBE_DATA), r) ∧ Acc.StandsAt s.data r 0 := by
  have hl : (Acc.new s).buf.length = PROBE_DATA := List.length_replicate
  have hx : (Acc.new s).index = 0 := rfl
  obtain ⟨x, r, f1, f2, f3, f4, f5, f6⟩ := fillUp_spec s.data PROBE_DATA (Acc.new s) (Acc.withCapacity_inv 4096 s h0)
    (by rw [hl]; omega)
  have hx : x = .ok (s.data.take PROBE_DATA) := by
    rcases f6 with ⟨h, _⟩ | ⟨e, k, _, h⟩
    · rw [h, hl, hx]; rfl
    · rw [show (Acc.new s).inner.script = s.script from rfl, hs] at h; cases h
  subst hx
  refine ⟨r, f1, ?_⟩
  have := f2.standsAt
  rwa [show r.index = 0 from f3] at this

example : (⟨[65, 66, 7], 0, fun _ => ⟨none, 0⟩, 0⟩ : Source).pos = 0 ∧
    ([65, 66, 7] : List U8).take PROBE_DATA = [65, 66, 7] ∧ (PROBE_DATA = 4096) := by
  refine ⟨rfl, by decide +kernel, rfl⟩

/-- **C145, if the reader fails.** The error is reported, and the reader stands at the beginning. -/
theorem c145_unreadable (dm : Demuxer D Acc.Acc) (ds : List (Descriptor D)) (dat : List U8) (cap fuel : Nat) (s : Source)
    (h0 : s.pos = 0) (hd : s.data = dat) (e : IoErr) (r : Acc.Acc)
    (h : openFile dm (fillUp (cap + 1)) ds fuel (Acc.withCapacity cap s) = .ok (.io e r)) :
    (∃ k, (s.script k).fail = some e) ∧ Acc.StandsAt dat r 0 := by
  subst hd
  have hi : Acc.Inv s.data (Acc.withCapacity cap s) := Acc.withCapacity_inv cap s h0
  obtain ⟨x, r', f1, f2, f3, f4, f5, f6⟩ := fillUp_spec s.data cap (Acc.withCapacity cap s) hi (by simp [Acc.withCapacity])
  simp only [openFile, f1, ok_bind] at h
  rcases f6 with ⟨rfl, _⟩ | ⟨e', k, rfl, hk⟩
  · revert h
    simp only
    split
    · intro h; cases h
    · rename_i desc _
      cases readHeaders dm accBuffered fuel (Context.new desc.create r') with
      | error p => intro h; cases h
      | ok v =>
        obtain ⟨y, c⟩ := v
        cases y <;> (intro h; cases h)
  · cases h
    refine ⟨⟨k, hk⟩, ?_⟩
    have := f2.standsAt
    rwa [show r.index = 0 from f3] at this

/-- **C145, one call of `fill_buf` instead.** What is shown is still the beginning of the file, and nothing only if the file or the
buffer is empty; the rest is as before, with the demuxer chosen by that beginning. -/
theorem c145_once (F : Format D) (hF : F.Framed) (ds : List (Descriptor D)) (dat : List U8) (cap : Nat) (s : Source)
    (h0 : s.pos = 0) (hd : s.data = dat) (hs : ∀ k, (s.script k).fail = none) :
    ∃ l, l ≤ cap ∧ (0 < cap → dat ≠ [] → 0 < l) ∧
      (probe ds (dat.take l) = none → ∃ r, openFile F.demuxer Acc.fillBuf ds (dat.length + 2) (Acc.withCapacity cap s) =
        .ok (.unknown r) ∧ Acc.StandsAt dat r 0) ∧
      ∀ desc, probe ds (dat.take l) = some desc → ∀ k d' i', F.head desc.create ⟨none, none, []⟩ dat = some (k, d', i') →
        ∃ c, openFile F.demuxer Acc.fillBuf ds (dat.length + 2) (Acc.withCapacity cap s) = .ok (.opened c) ∧ c.info = i' ∧
          ∀ n, ∃ c', readEvents F.demuxer accBuffered (dat.length + 1) n c =
            .ok ((F.events n d' i'.streams (dat.drop k)).map .ok, c') := by
  subst hd
  have hi : Acc.Inv s.data (Acc.withCapacity cap s) := Acc.withCapacity_inv cap s h0
  obtain ⟨x, r, f1, f⟩ := Acc.fillBuf_spec hi
  have f3' : r.index = 0 := f.index
  have f5' : r.inner.script = s.script := f.script
  cases x with
  | error e =>
    have := (f.error e rfl).2.1
    rw [show (Acc.withCapacity cap s).inner.script = s.script from rfl, hs] at this; cases this
  | ok w =>
    obtain ⟨t1, t2, t3⟩ := f.shown w rfl
    have hwin : Acc.win (Acc.withCapacity cap s) = [] := by simp [Acc.win, Acc.withCapacity]
    have hat := f.inv.at
    rw [f3', ← t1] at hat
    have hw : w = s.data.take w.length := by simpa [Acc.At] using hat
    refine ⟨w.length, ?_, fun hc hne => ?_, ?_⟩
    · have := win_le_buf f.inv
      rw [f.len, ← t1] at this
      simpa [Acc.withCapacity] using this
    · apply Nat.pos_of_ne_zero
      intro hz
      have hw0 := List.eq_nil_of_length_eq_zero hz
      have := t3 (by rw [hwin]; exact hw0) (by rw [hwin]; simpa [Acc.withCapacity] using hc)
      rw [hwin] at this
      simp only [Acc.withCapacity, List.length_nil, Nat.add_zero, Nat.le_zero] at this
      exact hne (List.eq_nil_of_length_eq_zero this)
    · rw [← hw]
      exact open_shown F hF ds s.data w _ _ r f1 f.inv f3' (f5' ▸ hs)

/-! ### a file whose format shows in its second byte -/

/-- Two formats: one has `A` in front of its records, the other `AB`; the state says which. A record is one byte. -/
def twoFormats : Format Bool where
  head d i w := if [65, 66].take (if d then 2 else 1) <+: w then some (if d then 2 else 1, d, { i with duration := some d.toNat }) else none
  headNeed _ _ _ := 1
  parse d w := match w with
    | [] => none
    | b :: _ => some (1, .NewPacket { Packet.new with data := [b] }, d)
  need _ w := w.length + 1

theorem twoFormats_framed : twoFormats.Framed where
  headStable d i w u x h := by
    simp only [twoFormats] at h ⊢
    by_cases hp : [65, 66].take (if d then 2 else 1) <+: w
    · rw [if_pos hp] at h
      rw [if_pos (hp.trans (List.prefix_append _ _))]; exact h
    · rw [if_neg hp] at h; cases h
  headNeed _ _ _ _ := Nat.one_pos
  stable d w u x h := by
    cases w with
    | nil => cases h
    | cons b w => exact h
  need d w h := by
    cases w with
    | nil => simp [twoFormats]
    | cons b w => cases h
  answers d w k ev d' n h := by
    cases w with
    | nil => cases h
    | cons b w => cases h; exact (nomatch ·)

def twoDescriptors : List (Descriptor Bool) :=
  [⟨false, ⟨"a", "a", "", [], []⟩, fun w => if [65] <+: w then 60 else 0⟩,
   ⟨true, ⟨"ab", "ab", "", [], []⟩, fun w => if [65, 66] <+: w then 100 else 0⟩]

/-- Which demuxer was chosen, and what was demuxed with it. -/
def outcome (x : Rust (Opened Bool)) (n : Nat) : Option (Bool × Option (List (List U8))) :=
  match x with
  | .ok (.opened c) => some (c.demuxer, match readEvents twoFormats.demuxer accBuffered 10 n c with
    | .ok (xs, _) => some (xs.filterMap fun x => match x with
      | .ok (.NewPacket p) => some p.data
      | _ => none)
    | .error _ => none)
  | _ => none

/-- **C145, that one call is not enough.** A file read one byte at a time is taken for another format than the same file read in one
go if `probe` is shown what one call of `fill_buf` gives. -/
theorem c145_once_is_not_enough : ∃ s s' : Source, s.data = s'.data ∧ s.pos = 0 ∧ s'.pos = 0 ∧
    (∀ k, (s.script k).fail = none ∧ (s'.script k).fail = none) ∧
    outcome (openFile twoFormats.demuxer Acc.fillBuf twoDescriptors 10 (Acc.withCapacity PROBE_DATA s)) 3 =
      some (false, some [[66], [7]]) ∧
    outcome (openFile twoFormats.demuxer Acc.fillBuf twoDescriptors 10 (Acc.withCapacity PROBE_DATA s')) 3 =
      some (true, some [[7]]) := by
  refine ⟨⟨[65, 66, 7], 0, fun _ => ⟨none, 0⟩, 0⟩, ⟨[65, 66, 7], 0, fun _ => ⟨none, 9⟩, 0⟩, rfl, rfl, rfl,
    fun _ => ⟨rfl, rfl⟩, ?_, ?_⟩ <;> decide +kernel

/-- Filled up, both are taken for what they are. -/
example : (∀ k : Bool, outcome (openFile twoFormats.demuxer (fillUp 9) twoDescriptors 10
      (Acc.withCapacity 8 ⟨[65, 66, 7], 0, fun _ => ⟨none, if k then 0 else 9⟩, 0⟩)) 3 = some (true, some [[7]])) ∧
    (probe twoDescriptors ([65, 66, 7].take 8)).map (·.create) = some true ∧
    twoFormats.head true ⟨none, none, []⟩ [65, 66, 7] = some (2, true, ⟨some 1, none, []⟩) := by
  decide +kernel

/-- A file of neither format, and one that cannot be read. -/
example : probe twoDescriptors ([67, 66].take 8) = none ∧
    (match openFile twoFormats.demuxer (fillUp 9) twoDescriptors 10
      (Acc.withCapacity 8 ⟨[65, 66, 7], 0, fun k => ⟨if k = 1 then some .interrupted else none, 0⟩, 0⟩) with
      | .ok (.io .interrupted r) => decide (r.index = 0)
      | _ => false) = true := by
  refine ⟨?_, by decide +kernel⟩
  simp [probe, probeLoop, twoDescriptors, PROBE_SCORE_EXTENSION]

end Verif.Demux
