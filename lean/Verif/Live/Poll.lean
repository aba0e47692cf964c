import Verif.Live.Demux
import Verif.RoundTrip.Props

/-!
# Waiting for a stream, and demuxing a file while it is muxed
-/

namespace Verif.Live
open Verif Verif.Io Verif.Acc Verif.Frame Verif.Stream Verif.Packet Verif.Demux Verif.RoundTrip

variable {R D M : Type} {dev : Dev R} {dat : List U8} {pos len : R → Nat}

theorem av_noEof : NoEof avFormat := by
  intro d w k ev d' h
  simp only [avFormat] at h
  cases w with
  | nil => cases h
  | cons n l =>
    simp only at h
    split at h
    · cases h
    · cases h; simp

/-! ### C135: what waiting costs -/

/-- Nothing comes: reads at the end of the stream return nothing and leave it as long as it is. -/
def Idle (dev : Dev R) (pos len : R → Nat) : Prop :=
  ∀ r n, len r ≤ pos r → (dev.read r n).1 = .ok [] ∧ len (dev.read r n).2 = len r

/-- What C135 claims: calling `read_event` again while nothing has come leaves the buffer as large as it is. -/
def C135 (F : Format D) : Prop :=
  ∀ (R : Type) (dev : Dev R) (dat : List U8) (pos len : R → Nat), Grows dev dat pos len → Idle dev pos len →
    ∀ (s : R), pos s = 0 → ∀ (cap m fuel : Nat) (d : D) (xs : List (Except Err Event)) (c c' : Context D (LAcc R)),
    readEvents (demuxer F) (buffered dev) fuel m (Context.new d (withCapacity cap s)) = .ok (xs, c) →
    readEvent (demuxer F) (buffered dev) fuel c = .ok (.ok .Eof, c') →
    c'.reader.buf.length = c.reader.buf.length

/-- One call that waits. -/
theorem wait_once (F : Format D) (hF : F.Framed) (hg : Grows dev dat pos len) (hid : Idle dev pos len)
    {c : Context D (LAcc R)} (hi : Inv dat pos len c.reader) (hend : len c.reader.inner ≤ pos c.reader.inner)
    (hp : F.parse c.demuxer (win c.reader) = none) (fuel : Nat) :
    ∃ c', readEvent (demuxer F) (buffered dev) (fuel + 1) c = .ok (.ok .Eof, c') ∧ Inv dat pos len c'.reader ∧
      len c'.reader.inner ≤ pos c'.reader.inner ∧ win c'.reader = win c.reader ∧ c'.demuxer = c.demuxer ∧
      c'.reader.buf.length = c.reader.buf.length + F.need c.demuxer (win c.reader) := by
  have hcall := event_call (F := F) hi
  rw [hp] at hcall
  have hn := hF.need _ _ hp
  have hask : Asks (demuxer F) (buffered dev) c _ _ := .error hcall
  have hd1 : (buffered dev).data c.reader = .ok (win c.reader) := data_ok hi
  generalize F.need c.demuxer (win c.reader) = n at hask hn ⊢
  obtain ⟨z, r, f1, f2, g, e⟩ := fill_grown hg hi n
  have hroom := e (by omega)
  have hd2 : (buffered dev).data r = .ok (win r) := data_ok f2.inv
  have hgi : (grow c.reader n).inner = c.reader.inner := rfl
  have hsz : r.buf.length = c.reader.buf.length + n := by
    rw [f2.size]; simp [grow]
  have hidle := hid c.reader.inner
  cases z with
  | error er =>
    obtain ⟨_, _, m, hm⟩ := f2.error er rfl
    rw [hgi, (hidle m hend).1] at hm
    cases hm
  | ok l =>
    obtain ⟨t1, t2, _, t4⟩ := f2.shown l rfl
    rw [g] at t2 t4
    obtain ⟨m, hm⟩ := t4 hroom
    rw [hgi] at hm
    obtain ⟨i1, i2⟩ := hidle m hend
    have hpos : pos r.inner = pos c.reader.inner := by
      rw [hm]
      have := (hg.read_ok c.reader.inner m [] i1).2.2.1
      simpa using this
    have hwl : (win r).length = (win c.reader).length := by
      rw [win_length f2.inv, win_length hi]
      have h1 := f2.inv.ip
      have h2 := hi.ip
      have h3 : r.index = c.reader.index := f2.index
      omega
    have hwin : win r = win c.reader := by
      rw [← t1]
      exact (t2.eq_of_length (by rw [t1]; exact hwl.symm)).symm
    refine ⟨_, readEvent_runsOut fuel (.eof hask hd1 hn f1 hd2 (by omega)), f2.inv, ?_, hwin, rfl, hsz⟩
    simp only
    rw [hpos, hm, i2]; exact hend

/-- **C135**, partial: in full, waiting leaves the buffer as large as it is. True is: when all that is there has been read
and does not hold a complete record, each of any number of calls of `read_event` returns `Eof` and enlarges the buffer by
the whole request of the demuxer. -/
theorem c135_exact_partial (F : Format D) (hF : F.Framed) (hg : Grows dev dat pos len) (hid : Idle dev pos len) (s : R)
    (h0 : pos s = 0) (cap : Nat) (hcap : 0 < cap) (fuel : Nat) (ops : List Op) (os : List Out) (c : Context D (LAcc R))
    (hr : run dev fuel (withCapacity cap s) ops = .ok (os, c.reader)) (hend : len c.reader.inner ≤ pos c.reader.inner)
    (w : List U8) (hw : data c.reader = .ok w) (hp : F.parse c.demuxer w = none) (m fuel' : Nat) :
    ∃ c', readEvents (demuxer F) (buffered dev) (fuel' + 1) m c = .ok (List.replicate m (.ok .Eof), c') ∧
      data c'.reader = .ok w ∧ c'.reader.buf.length = c.reader.buf.length + m * F.need c.demuxer w := by
  have hi : Inv dat pos len c.reader := by
    rcases run_spec hg fuel (withCapacity_inv (dat := dat) (len := len) cap s h0) (by simpa [withCapacity] using hcap) ops
      with ⟨h1, _⟩ | ⟨os', r', a1, a2, _⟩
    · rw [hr] at h1; cases h1
    · rw [hr] at a1
      cases a1
      exact a2
  rw [data_ok hi] at hw
  cases hw
  clear hr
  induction m generalizing c with
  | zero => exact ⟨c, rfl, data_ok hi, by omega⟩
  | succ m ih =>
    obtain ⟨c1, a1, a2, a3, a4, a5, a6⟩ := wait_once F hF hg hid hi hend hp fuel'
    obtain ⟨c', b1, b2, b3⟩ := ih c1 a3 a2 (by rw [a5, a4]; exact hp)
    refine ⟨c', ?_, by rw [b2, a4], ?_⟩
    · simp only [readEvents, a1, ok_bind, b1, pure_eq_ok, List.replicate_succ]
    · rw [b3, a6, a5, a4, Nat.succ_mul]; omega

/-- An empty file nothing is appended to. -/
theorem feed_idle (dat : List U8) : Idle (feedDev dat (fun _ => ⟨none, 0⟩) fun _ => 0) (·.pos)
    (fun f => min f.avail dat.length) := by
  intro r n h
  dsimp only at h
  have hnil : ((dat.take r.avail).drop r.pos) = [] := by
    apply List.eq_nil_of_length_eq_zero
    rw [List.length_drop, List.length_take]; omega
  simp only [feedDev, hnil, List.take_nil]
  exact ⟨trivial, by omega⟩

/-- C135 fails: over an empty file, `N` calls enlarge the buffer by `N` requests. -/
theorem c135_fails : avFormat.Framed ∧ ¬ C135 avFormat ∧ ∀ N : Nat,
    ∃ c, readEvents (demuxer avFormat) (buffered (feedDev [] (fun _ => ⟨none, 0⟩) fun _ => 0)) 2 N
      (Context.new () (withCapacity 4 ⟨0, 0, 0⟩)) = .ok (List.replicate N (.ok .Eof), c) ∧ c.reader.buf.length = 4 + N := by
  have key : ∀ N : Nat,
      ∃ c, readEvents (demuxer avFormat) (buffered (feedDev [] (fun _ => ⟨none, 0⟩) fun _ => 0)) 2 N
        (Context.new () (withCapacity 4 ⟨0, 0, 0⟩)) = .ok (List.replicate N (.ok .Eof), c) ∧ c.reader.buf.length = 4 + N := by
    intro N
    obtain ⟨c, h1, _, h3⟩ := c135_exact_partial avFormat av_framed (feed_grows [] (fun _ => ⟨none, 0⟩) fun _ => 0)
      (feed_idle []) ⟨0, 0, 0⟩ rfl 4 (by omega) 0 [] [] (Context.new () (withCapacity 4 ⟨0, 0, 0⟩)) rfl
      (by simp [Context.new, withCapacity]) [] rfl rfl N 1
    refine ⟨c, h1, ?_⟩
    rw [h3]
    simp [Context.new, withCapacity, avFormat]
  refine ⟨av_framed, fun h => ?_, key⟩
  obtain ⟨c, h1, h2⟩ := key 1
  simp only [readEvents] at h1
  cases hq : readEvent (demuxer avFormat) (buffered (feedDev [] (fun _ => ⟨none, 0⟩) fun _ => 0)) 2
      (Context.new () (withCapacity 4 ⟨0, 0, 0⟩)) with
  | error q => rw [hq] at h1; cases h1
  | ok v =>
    obtain ⟨x, c1⟩ := v
    rw [hq] at h1
    simp only [ok_bind, pure_eq_ok, Except.ok.injEq, Prod.mk.injEq, List.replicate_succ, List.replicate_zero,
      List.cons.injEq, and_true] at h1
    obtain ⟨rfl, rfl⟩ := h1
    have := h Feed _ [] _ _ (feed_grows [] (fun _ => ⟨none, 0⟩) fun _ => 0) (feed_idle []) ⟨0, 0, 0⟩ rfl 4 0 2 () [] _ _
      rfl hq
    rw [h2] at this
    simp [Context.new, withCapacity] at this

/-! ### C136: demuxing what is being muxed -/

theorem events_take {F : Format D} {n k : Nat} {d : D} {streams : List Stream} {w : List U8} :
    F.events n d streams w = (F.events (n + k) d streams w).take n := by
  induction n generalizing d streams w with
  | zero => rfl
  | succ n ih =>
    rw [show n + 1 + k = (n + k) + 1 by omega]
    simp only [Format.events]
    cases F.parse d w with
    | none => rw [List.take_succ_cons, ← ih]
    | some v => obtain ⟨a, b, c⟩ := v; rw [List.take_succ_cons, ← ih]

/-- **C136.** A file is demuxed while it is muxed: its bytes, written by any muxer the format undoes, come while the demuxer
runs. If the headers come after finitely many reads, `read_headers` returns the streams of the header; of the calls of
`read_event` that follow, those that do not return `Eof` return the muxed packets, each once and in order. -/
theorem c136_follow (F : Format D) (hF : F.Framed) (he : NoEof F) (hdr : M → List U8 × M)
    (pkt : M → Packet → List U8 × M) (trl : M → List U8 × M) (wire : Packet → Packet) (info : GlobalInfo) (m : M) (d : D)
    (good : Packet → Prop) (sync : M → D → Prop) (h : Undoes F hdr pkt trl wire info m d good sync)
    (ps : List Packet) (hgood : ∀ p ∈ ps, good p)
    (hg : Grows dev (Mux.fileBytes hdr pkt trl m ps) pos len) (hh : dev.Healthy pos len) (s : R) (h0 : pos s = 0)
    (cap : Nat) (rank : R → Nat)
    (hrank : ∀ r n, len r < (hdr m).1.length → rank (dev.read r n).2 < rank r) (n : Nat) :
    ∃ c1 xs c2, readHeaders (demuxer F) (buffered dev) (rank s + (Mux.fileBytes hdr pkt trl m ps).length + 2)
        (Context.new d (withCapacity cap s)) = .ok (.ok (), c1) ∧ c1.info = info ∧
      readEvents (demuxer F) (buffered dev) ((Mux.fileBytes hdr pkt trl m ps).length + 1) n c1 = .ok (xs, c2) ∧
      xs.length = n ∧ (∀ e, .error e ∉ xs) ∧
      xs.filterMap returned =
        (ps.map fun p => completed info.streams (.NewPacket (wire p))).take (xs.filterMap returned).length := by
  obtain ⟨d', h1, h2⟩ := h.header
  have hfile : Mux.fileBytes hdr pkt trl m ps = (hdr m).1 ++ ((Mux.packetBytes pkt (hdr m).2 ps).1 ++
      (trl (Mux.packetBytes pkt (hdr m).2 ps).2).1) := by rw [Mux.fileBytes, List.append_assoc]
  have hhead := hF.headStable d _ _ ((Mux.packetBytes pkt (hdr m).2 ps).1 ++
    (trl (Mux.packetBytes pkt (hdr m).2 ps).2).1) _ h1
  have hi : Inv (Mux.fileBytes hdr pkt trl m ps) pos len (Context.new d (withCapacity cap s)).reader :=
    withCapacity_inv cap s h0
  rw [← hfile] at hhead
  have hleft := left_le F (Mux.fileBytes hdr pkt trl m ps) len d ⟨none, none, []⟩ 0 rank (withCapacity cap s)
  obtain ⟨x, c1, a1, a2, a3⟩ := live_headers F hF hg (.inr hh) rank (rank s + (Mux.fileBytes hdr pkt trl m ps).length + 1)
    (Context.new d (withCapacity cap s)) _ d' info hi (by simpa [Context.new, withCapacity] using hhead)
    (by
      intro r k hr
      apply hrank
      apply Decidable.byContradiction
      intro hge
      apply hr
      have : (Mux.fileBytes hdr pkt trl m ps).take (len r) = (hdr m).1 ++ ((Mux.packetBytes pkt (hdr m).2 ps).1 ++
          (trl (Mux.packetBytes pkt (hdr m).2 ps).2).1).take (len r - (hdr m).1.length) := by
        rw [hfile, List.take_append, List.take_of_length_le (by omega)]
      change (F.head d ⟨none, none, []⟩ (((Mux.fileBytes hdr pkt trl m ps).take (len r)).drop 0)).isSome
      rw [List.drop_zero, this, hF.headStable _ _ _ _ _ h1]
      rfl)
    hleft
  rcases a3 with ⟨e, r, k, _, b2, _⟩ | ⟨rfl, b2, b3, b4⟩
  · obtain ⟨l, hl⟩ := hh.read r k
    rw [hl] at b2; cases b2
  · obtain ⟨xs, c2, e1, e2, e3, e4⟩ := live_events F hF he hg (.inr hh) _ (Nat.lt_succ_self _) n c1 a2
    have hnoerr : ∀ e, .error e ∉ xs := by
      intro e hx
      obtain ⟨io, r, k, _, hk⟩ := e4 e hx
      obtain ⟨l, hl⟩ := hh.read r k
      rw [hl] at hk; cases hk
    refine ⟨c1, xs, c2, a1, b3, e1, e2, hnoerr, ?_⟩
    have hix : (Context.new d (withCapacity cap s)).reader.index = 0 := rfl
    rw [b2, b3, b4, hix, Nat.zero_add, hfile, List.drop_left] at e3
    have hne : Event.Eof ∉ xs.filterMap returned := by
      intro hm
      obtain ⟨y, _, hy⟩ := List.mem_filterMap.1 hm
      cases y with
      | error e => cases hy
      | ok ev => cases ev <;> simp [returned] at hy
    generalize xs.filterMap returned = L at e3 hne ⊢
    have hall := events_packets hF h info.streams L.length ps _ d' hgood h2
    rw [show ps.length + L.length = L.length + ps.length by omega] at hall
    have hL : L = (ps.map (fun p => completed info.streams (.NewPacket (wire p))) ++
        List.replicate L.length Event.Eof).take L.length := by
      rw [← hall, ← events_take]; exact e3
    by_cases hlen : L.length ≤ ps.length
    · rw [List.take_append_of_le_length (by rw [List.length_map]; exact hlen)] at hL
      exact hL
    · exfalso
      apply hne
      rw [hL, List.take_append, List.mem_append]
      right
      rw [List.length_map, List.take_replicate, List.mem_replicate]
      exact ⟨by omega, rfl⟩

/-! ### a file that is muxed while it is demuxed -/

/-- The file of two packets, of which a byte is there at first, and two more come at every fourth call. -/
def followDev : Dev Feed := feedDev [65, 86, 2, 5, 6, 1, 4, 0] (fun _ => ⟨none, 9⟩)
  fun k => if k % 4 = 3 then 2 else 0

/-- How many reads are left until the header is there. -/
def followRank (f : Feed) : Nat := if 2 ≤ f.avail then 0 else 4 - f.clock % 4

/-- The packets with `Eof` in between, and the hypotheses of C136. -/
example : Mux.fileBytes avHdr avPkt avTrl 0 [{ Packet.new with data := [5, 6] }, { Packet.new with data := [4] }] =
      [65, 86, 2, 5, 6, 1, 4, 0] ∧
    Grows followDev [65, 86, 2, 5, 6, 1, 4, 0] (·.pos) (fun f => min f.avail 8) ∧
    followDev.Healthy (·.pos) (fun f => min f.avail 8) ∧
    (∀ (f : Feed) (n : Nat), min f.avail 8 < 2 → followRank (followDev.read f n).2 < followRank f) ∧
    (match readHeaders (demuxer avFormat) (buffered followDev) 9 (Context.new () (withCapacity 1 ⟨0, 1, 0⟩)) with
    | .ok (.ok (), c1) => (match readEvents (demuxer avFormat) (buffered followDev) 9 9 c1 with
      | .ok (xs, _) => decide (xs = [.ok .Eof, .ok .Eof, .ok .Eof,
          .ok (.NewPacket { Packet.new with data := [5, 6], stream_index := 0, t := { Packet.new.t with timebase := some ⟨1, 25⟩ } }),
          .ok .Eof, .ok .Eof, .ok .Eof,
          .ok (.NewPacket { Packet.new with data := [4], stream_index := 0, t := { Packet.new.t with timebase := some ⟨1, 25⟩ } }),
          .ok .Eof])
      | _ => false)
    | _ => false) = true := by
  refine ⟨by decide +kernel, feed_grows .., feed_healthy _ _ _ fun _ => rfl, ?_, by decide +kernel⟩
  intro f n h
  simp only [followDev, feedDev, followRank]
  rw [if_neg (show ¬ 2 ≤ f.avail by omega)]
  split <;> split <;> omega

end Verif.Live
