import Verif.Demux.Props
import Verif.Demux.Probe

/-!
# Properties C88, C89: the documented probe threshold, and the numbers of announced streams
-/

namespace Verif.Demux
open Verif Verif.Io Verif.Frame Verif.Stream Verif.Packet

/-! ### C88

demuxer.rs:202-204 says that data with a score of at least `PROBE_SCORE_EXTENSION` surely is of the format. -/

/-- C88 is false: a score of 50 is not enough. -/
theorem c88_fails : ¬ ∀ (T : Type) (ds : List (Descriptor T)) (data : List U8) (d : Descriptor T),
    d ∈ ds → PROBE_SCORE_EXTENSION ≤ d.probe data → probe ds data ≠ none := by
  intro h
  exact h Unit [⟨(), ⟨"a", "a", "", [], []⟩, fun _ => 50⟩] [] ⟨(), ⟨"a", "a", "", [], []⟩, fun _ => 50⟩
    (by simp) (by decide) (by decide)

/-- C88, what holds: data with a greater score than 50 are found to be of some format, of one with a score as high;
and 50 is the only score for which that makes a difference. -/
theorem c88_threshold_partial {T : Type} (ds : List (Descriptor T)) (data : List U8) (d : Descriptor T) (hd : d ∈ ds) :
    (PROBE_SCORE_EXTENSION < d.probe data →
      ∃ e, probe ds data = some e ∧ e ∈ ds ∧ d.probe data ≤ e.probe data) ∧
    ((∀ e ∈ ds, e.probe data ≠ PROBE_SCORE_EXTENSION) → PROBE_SCORE_EXTENSION ≤ d.probe data →
      probe ds data ≠ none) ∧
    (probe ds data = none ↔ ∀ e ∈ ds, e.probe data ≤ PROBE_SCORE_EXTENSION) := by
  have h50 : PROBE_SCORE_EXTENSION.toNat = 50 := rfl
  obtain ⟨h1, h2⟩ := c37_probe ds data
  refine ⟨fun h => ?_, fun hn h => ?_, h2.trans (forall₂_congr fun e _ => by rw [BitVec.le_def, h50])⟩
  · have hs := BitVec.lt_def.1 h
    cases hp : probe ds data with
    | none => have := h2.1 hp d hd; omega
    | some e =>
      obtain ⟨_, h4, i, h5, _⟩ := h1 e hp
      exact ⟨e, rfl, List.mem_of_getElem? h5, BitVec.le_def.2 (h4 d hd)⟩
  · intro hp
    have h3 := h2.1 hp d hd
    have h4 := BitVec.le_def.1 h
    exact hn d hd (BitVec.eq_of_toNat_eq (by omega))

example : ∃ d ∈ sampleDescriptors, PROBE_SCORE_EXTENSION < d.probe [] := by decide
example : ∀ e ∈ sampleDescriptors, e.probe [] ≠ PROBE_SCORE_EXTENSION := by decide

/-! ### C89 -/

/-- Every stream of the table has its position as its index. -/
def Numbered (l : List Stream) : Prop := ∀ (i : Nat) s, l[i]? = some s → s.index = i

instance (l : List Stream) : Decidable (Numbered l) :=
  decidable_of_iff (∀ i : Fin l.length, l[i].index = i)
    ⟨fun h i s hs => by
      obtain ⟨hi, rfl⟩ := List.getElem?_eq_some_iff.1 hs
      exact h ⟨i, hi⟩,
     fun h i => h i _ (by simp)⟩

/-- Announces a stream for every byte, as `Stream::from_params` makes it. -/
def announcer : Demuxer Unit Acc.Acc :=
  windowDemuxer (fun d info _ => (.ok (.current 0), d, info)) (fun d w =>
    (match w with
      | [] => .error (.MoreDataNeeded 1)
      | 0 :: _ => .ok (.current 1, .NewStream (Stream.fromParams sampleParams ⟨1, 25⟩))
      | _ => .ok (.current 1, .NewPacket { Packet.new with stream_index := 1 }), d))

def announcerContext : Context Unit Acc.Acc := Context.new () (Acc.withCapacity 4 ⟨[0, 0, 1], 0, fun _ => ⟨none, 9⟩, 0⟩)

/-- C89 is false: two streams announced by events keep the index 0, and a packet of the second gets no timebase. -/
theorem c89_fails : ∃ xs c' q, readEvents announcer accBuffered 9 3 announcerContext = .ok (xs, c') ∧
    xs.length = 3 ∧ announcerContext.info.streams = [] ∧ c'.info.streams.length = 2 ∧
    c'.info.streams.map (·.index) = [0, 0] ∧ c'.info.streams.map (·.id) = [-1, -1] ∧ ¬ Numbered c'.info.streams ∧
    xs[2]? = some (.ok (.NewPacket q)) ∧ q.stream_index = 1 ∧ q.t.timebase = none := by
  have h : (match readEvents announcer accBuffered 9 3 announcerContext with
    | .ok (xs, c') => (match (xs[2]? : Option (Except Err Event)) with
      | some (.ok (.NewPacket q)) => decide (xs.length = 3 ∧ announcerContext.info.streams = [] ∧
        c'.info.streams.length = 2 ∧
        c'.info.streams.map (·.index) = [0, 0] ∧ c'.info.streams.map (·.id) = [-1, -1] ∧ ¬ Numbered c'.info.streams ∧
        q.stream_index = 1 ∧ q.t.timebase = none)
      | _ => false)
    | _ => false) = true := by decide +kernel
  split at h
  · rename_i xs c' e
    split at h
    · rename_i q e2
      obtain ⟨a1, a2, a3, a4, a5, a6, a7, a8⟩ := of_decide_eq_true h
      exact ⟨xs, c', q, e, a1, a2, a3, a4, a5, a6, e2, a7, a8⟩
    · cases h
  · cases h

/-- The streams announced are numbered by the demuxer, beginning with `k`. -/
def NumberedFrom (k : Nat) : List (Except Err Event) → Prop
  | [] => True
  | .ok (.NewStream s) :: xs => s.index = k ∧ NumberedFrom (k + 1) xs
  | _ :: xs => NumberedFrom k xs

theorem numbered_append {l : List Stream} {xs : List (Except Err Event)} (hl : Numbered l)
    (h : NumberedFrom l.length xs) : Numbered (l ++ xs.flatMap announced) := by
  induction xs generalizing l with
  | nil => simpa using hl
  | cons x xs ih =>
    have skip : announced x = [] → NumberedFrom l.length xs → Numbered (l ++ (x :: xs).flatMap announced) := by
      intro a b
      simp only [List.flatMap_cons, a, List.nil_append]
      exact ih hl b
    match x, h with
    | .ok (.NewStream s), ⟨h1, h2⟩ =>
      have := ih (l := l ++ [s]) (by
        intro i t ht
        rcases Nat.lt_or_ge i l.length with hi | hi
        · rw [List.getElem?_append_left hi] at ht; exact hl i t ht
        · rw [List.getElem?_append_right hi] at ht
          obtain ⟨h3, h4⟩ := List.getElem?_eq_some_iff.1 ht
          simp only [List.length_singleton] at h3
          simp only [show i - l.length = 0 by omega, List.getElem_cons_zero] at h4
          subst h4; omega) (by simpa using h2)
      simpa [announced] using this
    | .error e, h => exact skip rfl h
    | .ok (.NewPacket p), h => exact skip rfl h
    | .ok (.MoreDataNeeded n), h => exact skip rfl h
    | .ok .Continue, h => exact skip rfl h
    | .ok .Eof, h => exact skip rfl h

theorem Numbered.front {l m : List Stream} (h : Numbered (l ++ m)) : Numbered l := by
  intro i s hs
  obtain ⟨hi, _⟩ := List.getElem?_eq_some_iff.1 hs
  exact h i s (by rw [List.getElem?_append_left hi]; exact hs)

theorem numberedFrom_of {l : List Stream} {xs : List (Except Err Event)}
    (h : Numbered (l ++ xs.flatMap announced)) : NumberedFrom l.length xs := by
  induction xs generalizing l with
  | nil => trivial
  | cons x xs ih =>
    have skip : announced x = [] → NumberedFrom l.length xs := by
      intro a
      simp only [List.flatMap_cons, a, List.nil_append] at h
      exact ih h
    match x with
    | .ok (.NewStream s) =>
      have h' : Numbered ((l ++ [s]) ++ xs.flatMap announced) := by simpa [announced] using h
      refine ⟨?_, by simpa using ih h'⟩
      have := h'.front l.length s (by simp)
      omega
    | .error e => exact skip rfl
    | .ok (.NewPacket p) => exact skip rfl
    | .ok (.MoreDataNeeded n) => exact skip rfl
    | .ok .Continue => exact skip rfl
    | .ok .Eof => exact skip rfl

theorem find_numbered {l : List Stream} (hl : Numbered l) {i : Nat} {s : Stream} (hs : l[i]? = some s) :
    l.find? (fun s => decide ((s.index : Int) = (i : Int))) = some s := by
  rw [List.find?_eq_some_iff_getElem]
  obtain ⟨hi, rfl⟩ := List.getElem?_eq_some_iff.1 hs
  refine ⟨by simp [hl i _ hs], i, hi, rfl, fun j hj => ?_⟩
  have := hl j _ (List.getElem?_eq_getElem (by omega : j < l.length))
  simp only [Bool.not_eq_true', decide_eq_false_iff_not]
  omega

variable {D R : Type} {dm : Demuxer D R} {bf : Buffered R}

/-- C89, what holds: if the demuxer itself gives each stream it announces the number of streams known by then, every
stream of the table has its position as its index after any history of calls, and a packet that comes next with the
position of a stream and no timebase gets that stream's. Missing: a demuxer that leaves the numbers to the context. -/
theorem c89_numbered_partial (fuel n : Nat) (c c' : Context D R) (xs : List (Except Err Event))
    (h : readEvents dm bf fuel n c = .ok (xs, c')) (hc : Numbered c.info.streams)
    (hx : NumberedFrom c.info.streams.length xs) :
    Numbered c'.info.streams ∧
    ∀ (q : Packet) (c'' : Context D R) (i : Nat) (s : Stream), c'.info.streams.length ≤ 2 ^ 63 →
      readEvent dm bf fuel c' = .ok (.ok (.NewPacket q), c'') → c'.info.streams[i]? = some s → q.stream_index = i →
      ∃ d r sk p d' r', dm.readEvent d r = .ok (.ok (sk, .NewPacket p), d', r') ∧
        q.t.timebase = some (p.t.timebase.getD s.timebase) := by
  have h1 := c32_streams fuel n c c' xs h
  have hn : Numbered c'.info.streams := by
    rw [h1]; exact numbered_append hc hx
  refine ⟨hn, fun q c'' i s hl hq hs hi => ?_⟩
  obtain ⟨d, r, sk, p, d', r', a1, _, a3⟩ := c31_timebase fuel c' c'' q (by
    intro t ht
    obtain ⟨j, hj, rfl⟩ := List.mem_iff_getElem.1 ht
    have := hn j _ (List.getElem?_eq_getElem hj)
    omega) hq
  refine ⟨d, r, sk, p, d', r', a1, ?_⟩
  have hp : p.stream_index = i := by rw [← hi, a3]
  rw [a3, hp, find_numbered hn hs]
  cases p.t.timebase <;> rfl

/-- C89, exactly: after any history the streams of the table have their positions as indices if and only if they had
before and the demuxer numbered those it announced, beginning with the number of streams there were. -/
theorem c89_exact_partial (fuel n : Nat) (c c' : Context D R) (xs : List (Except Err Event))
    (h : readEvents dm bf fuel n c = .ok (xs, c')) :
    Numbered c'.info.streams ↔ Numbered c.info.streams ∧ NumberedFrom c.info.streams.length xs := by
  rw [c32_streams fuel n c c' xs h]
  exact ⟨fun h => ⟨h.front, numberedFrom_of h⟩, fun h => numbered_append h.1 h.2⟩

/-- Numbers the streams itself. -/
def numberer : Demuxer Nat Acc.Acc :=
  windowDemuxer (fun d info _ => (.ok (.current 0), d, info)) (fun d w =>
    match w with
      | [] => (.error (.MoreDataNeeded 1), d)
      | 0 :: _ => (.ok (.current 1, .NewStream { Stream.fromParams sampleParams ⟨1, d + 25⟩ with index := d }), d + 1)
      | _ => (.ok (.current 1, .NewPacket { Packet.new with stream_index := 1 }), d))

def numbererContext : Context Nat Acc.Acc := Context.new 0 (Acc.withCapacity 4 ⟨[0, 0, 1], 0, fun _ => ⟨none, 9⟩, 0⟩)

example : (match readEvents numberer accBuffered 9 2 numbererContext with
    | .ok ([.ok (.NewStream s), .ok (.NewStream t)], c') => (match readEvent numberer accBuffered 9 c' with
      | .ok (.ok (.NewPacket q), _) => decide (s.index = 0 ∧ t.index = 1 ∧ c'.info.streams = [s, t] ∧
          q.stream_index = 1 ∧ q.t.timebase = some ⟨1, 26⟩)
      | _ => false)
    | _ => false) = true := by decide +kernel

end Verif.Demux
