import Verif.RoundTrip.Predict
import Verif.Demux.Seeking

/-!
# Property C171, continued: going back in a film

The codec of C170 and the demuxer of `Demux/Seeking`: a player that has seen some of a film, noted the place, gone elsewhere and come back.
-/

namespace Verif.RoundTrip
open Verif Verif.Io Verif.Frame Verif.Stream Verif.Packet Verif.Demux Verif.Codec

variable {M D : Type}

/-- Frame `K` is the first from `n` on that is coded by itself, or there is none and `K` is the end. -/
def FirstKey (dims : List (Nat × Nat)) (fs : List Frame) (n K : Nat) : Prop :=
  n ≤ K ∧ K ≤ fs.length ∧ (K < fs.length → typeAt dims fs K = .I) ∧ ∀ j, n ≤ j → j < K → typeAt dims fs j ≠ .I

/-- All frames from `K` on, with their pictures and the times of their packets. -/
def Resumes (v : Frame.VideoInfo) (dims : List (Nat × Nat)) (fs : List Frame) (qs : List Packet) (K : Nat) (gs : List Frame) : Prop :=
  gs.length = fs.length - K ∧ ∀ (i : Nat) g, gs[i]? = some g → ∃ f q, fs[K + i]? = some f ∧ qs[K + i]? = some q ∧
    g.kind = .Video { v with frame_type := typeAt dims fs (K + i) } ∧ g.t = q.t ∧ picture dims g = picture dims f

/-! ### proofs: places in the file -/

/-- A place where a packet's record or the trailer begins. -/
def OnFilm (dat : List U8) (pkt : M → Packet → List U8 × M) (trl : M → List U8 × M) (sync : M → D → Prop) (good : Packet → Prop)
    (s : Nat × D) (ps : List Packet) : Prop :=
  ∃ m, sync m s.2 ∧ (∀ p ∈ ps, good p) ∧ dat.drop s.1 = (Mux.packetBytes pkt m ps).1 ++ (trl (Mux.packetBytes pkt m ps).2).1

section
variable {F : Format D} {hdr : M → List U8 × M} {pkt : M → Packet → List U8 × M} {trl : M → List U8 × M} {wire : Packet → Packet}
  {info : GlobalInfo} {m0 : M} {d0 : D} {good : Packet → Prop} {sync : M → D → Prop} {dat : List U8}

theorem film_parse (hF : F.Framed) (h : Undoes F hdr pkt trl wire info m0 d0 good sync) {s : Nat × D} {ps : List Packet}
    (ho : OnFilm dat pkt trl sync good s ps) :
    match ps with
    | [] => F.parse s.2 (dat.drop s.1) = none
    | p :: ps => ∃ k d', F.parse s.2 (dat.drop s.1) = some (k, .NewPacket (wire p), d') ∧ OnFilm dat pkt trl sync good (s.1 + k, d') ps := by
  obtain ⟨m, h1, h2, h3⟩ := ho
  cases ps with
  | nil => simp only [h3, Mux.packetBytes, List.nil_append]; exact h.trailer m _ h1
  | cons p ps =>
    obtain ⟨d', a1, a2⟩ := h.packet m s.2 p h1 (h2 p (by simp))
    have a3 := hF.stable _ _ ((Mux.packetBytes pkt (pkt m p).2 ps).1 ++ (trl (Mux.packetBytes pkt (pkt m p).2 ps).2).1) _ a1
    refine ⟨_, d', by rw [h3]; simpa only [Mux.packetBytes, List.append_assoc] using a3, (pkt m p).2, a2, fun q hq => h2 q (by simp [hq]), ?_⟩
    rw [← List.drop_drop, h3]
    simp only [Mux.packetBytes, List.append_assoc, List.drop_left]

/-- Everywhere the application goes are such places. -/
theorem film_press (hF : F.Framed) (h : Undoes F hdr pkt trl wire info m0 d0 good sync) {r : Reel D}
    (hs : ∃ ps, OnFilm dat pkt trl sync good r.spot ps) (hm : ∀ s ∈ r.marks, ∃ ps, OnFilm dat pkt trl sync good s ps) (b : Press) :
    (∃ ps, OnFilm dat pkt trl sync good (r.press F dat b).2.spot ps) ∧
    (∀ s ∈ (r.press F dat b).2.marks, ∃ ps, OnFilm dat pkt trl sync good s ps) ∧
    (r.press F dat b).2.streams = r.streams ∧ r.marks <+: (r.press F dat b).2.marks := by
  cases b with
  | mark =>
    refine ⟨hs, ?_, rfl, List.prefix_append _ _⟩
    intro s hs'
    simp only [Reel.press, List.mem_append, List.mem_singleton] at hs'
    rcases hs' with h1 | rfl
    · exact hm s h1
    · exact hs
  | go i =>
    simp only [Reel.press]
    cases hi : r.marks[i]? with
    | none => exact ⟨hs, hm, rfl, List.prefix_rfl⟩
    | some s => exact ⟨hm s (List.mem_of_getElem? hi), hm, rfl, List.prefix_rfl⟩
  | next =>
    simp only [Reel.press]
    split
    · exact ⟨hs, hm, rfl, List.prefix_rfl⟩
    · obtain ⟨ps, ho⟩ := hs
      have hp := film_parse hF h ho
      cases ps with
      | nil => simp only [hp]; exact ⟨⟨_, ho⟩, hm, trivial, List.prefix_rfl⟩
      | cons p ps =>
        obtain ⟨k, d', h1, h2⟩ := hp
        simp only [h1]
        exact ⟨⟨_, h2⟩, hm, by simp [announced], List.prefix_rfl⟩

theorem film_run (hF : F.Framed) (h : Undoes F hdr pkt trl wire info m0 d0 good sync) (bs : List Press) : ∀ {r : Reel D},
    (∃ ps, OnFilm dat pkt trl sync good r.spot ps) → (∀ s ∈ r.marks, ∃ ps, OnFilm dat pkt trl sync good s ps) →
    (r.run F dat bs).2.streams = r.streams ∧ r.marks <+: (r.run F dat bs).2.marks := by
  induction bs with
  | nil => intro r _ _; exact ⟨rfl, List.prefix_rfl⟩
  | cons b bs ih =>
    intro r hs hm
    obtain ⟨a1, a2, a3, a4⟩ := film_press hF h hs hm b
    obtain ⟨b1, b2⟩ := ih a1 a2
    exact ⟨b1.trans a3, a4.trans b2⟩

/-- After `n` packets. -/
theorem film_nexts (hF : F.Framed) (h : Undoes F hdr pkt trl wire info m0 d0 good sync) (n : Nat) : ∀ {s : Nat × D} {ps : List Packet}
    {streams : List Stream} {marks : List (Nat × D)}, OnFilm dat pkt trl sync good s ps → n ≤ ps.length →
    ∃ s', (Reel.run F dat ⟨s, false, streams, marks⟩ (List.replicate n .next)).2 = ⟨s', false, streams, marks⟩ ∧
      OnFilm dat pkt trl sync good s' (ps.drop n) := by
  induction n with
  | zero => intro s ps streams marks ho _; exact ⟨s, rfl, ho⟩
  | succ n ih =>
    intro s ps streams marks ho hn
    have hp := film_parse hF h ho
    cases ps with
    | nil => simp at hn
    | cons p ps =>
      obtain ⟨k, d', h1, h2⟩ := hp
      obtain ⟨s', a1, a2⟩ := ih (streams := streams) (marks := marks) h2 (by simpa using hn)
      refine ⟨s', ?_, a2⟩
      rw [List.replicate_succ]
      simp only [Reel.run, Reel.press, Bool.false_eq_true, if_false, h1, announced, List.append_nil]
      exact a1

end

/-- Calls of `read_event` only. -/
theorem run_nexts (F : Format D) (fuel n : Nat) : ∀ (v : Viewer D), v.run F fuel (List.replicate n .next) = (do
    let (xs, c) ← readEvents F.guided.demuxer accBuffered fuel n v.ctx
    return (xs.map some, { v with ctx := c })) := by
  induction n with
  | zero => intro v; rfl
  | succ n ih =>
    intro v
    rw [List.replicate_succ]
    simp only [Viewer.run, Viewer.press, readEvents, bind_assoc]
    cases readEvent F.guided.demuxer accBuffered fuel v.ctx with
    | error e => rfl
    | ok y =>
      simp only [ok_bind, pure_eq_ok, ih]
      cases readEvents F.guided.demuxer accBuffered fuel n y.2 with
      | error e => rfl
      | ok z => rfl

/-! ### proofs: what is seen from a place on -/

theorem Presents.rest {v : Frame.VideoInfo} {dims : List (Nat × Nat)} {fs : List Frame} {qs : List Packet} {n : Nat} {gs : List Frame}
    (hp : Presents v dims fs qs n gs) (h : ∀ i, n ≤ i → i < fs.length → Seen dims fs qs i) : Resumes v dims fs qs n gs := by
  induction hp with
  | done h1 => exact ⟨by simp; omega, fun i g hg => by simp at hg⟩
  | skip h1 h2 => exact absurd (h _ (Nat.le_refl _) h1) h2
  | @«show» n g gs f q h1 h2 h3 h4 h5 h6 _ ih =>
    have hlt : n < fs.length := (List.getElem?_eq_some_iff.1 h2).1
    obtain ⟨i1, i2⟩ := ih fun i a b => h i (by omega) b
    refine ⟨by rw [List.length_cons, i1]; omega, fun i g' hg => ?_⟩
    cases i with
    | zero => cases hg; exact ⟨f, q, h2, h3, h4, h5, h6⟩
    | succ i =>
      have := i2 i g' hg
      rwa [show n + 1 + i = n + (i + 1) by omega] at this

theorem Presents.resumes {v : Frame.VideoInfo} {dims : List (Nat × Nat)} {fs : List Frame} {qs : List Packet} {n : Nat}
    (hlost : ∀ k, Lost qs k ↔ k < n) {i : Nat} {gs : List Frame} (hp : Presents v dims fs qs i gs) (hi : i ≤ fs.length) (hn : n ≤ i)
    (hk : ∀ j, n ≤ j → j < i → typeAt dims fs j ≠ .I) : ∃ K, FirstKey dims fs n K ∧ Resumes v dims fs qs K gs := by
  have hseen : ∀ j l, n ≤ j → j ≤ l → typeAt dims fs j = .I → Seen dims fs qs l := fun j l h1 h2 h3 =>
    ⟨j, h2, h3, fun k a _ hl => by have := (hlost k).1 hl; omega⟩
  induction hp with
  | @done i h1 =>
    exact ⟨i, ⟨hn, hi, fun h => by omega, hk⟩, by simp; omega, fun i g hg => by simp at hg⟩
  | @skip i gs h1 h2 _ ih =>
    refine ih h1 (by omega) fun j a b => ?_
    by_cases e : j = i
    · subst e
      exact fun h => h2 (hseen j j a (Nat.le_refl _) h)
    · exact hk j a (by omega)
  | @«show» i g gs f q h1 h2 h3 h4 h5 h6 h7 ih =>
    have hI : typeAt dims fs i = .I := by
      obtain ⟨j, a1, a2, a3⟩ := h1
      have hnj : n ≤ j := by
        rcases Nat.lt_or_ge j n with h | h
        · exact absurd ((hlost j).2 h) (a3 j (Nat.le_refl _) a1)
        · exact h
      by_cases e : j = i
      · exact e ▸ a2
      · exact absurd a2 (hk j hnj (by omega))
    exact ⟨i, ⟨hn, hi, fun _ => hI, hk⟩, Presents.rest (.show h1 h2 h3 h4 h5 h6 h7) fun l a _ => hseen i l hn a hI⟩

/-! ### C171 -/

/-- **C171, films.** A film of any frames in any format that undoes its muxer. A player that has read `n` packets notes the place, does
anything (`bs`: reads on, notes other places, goes to them), and goes back, flushing its decoder, whatever that has decoded: it then
shows all frames from the first one on that is coded by itself at or behind the place, with the pictures they had, and none before. -/
theorem c171_video (v : Frame.VideoInfo) (dims : List (Nat × Nat)) (hd : Plain v dims) (x : List U8)
    (F : Format D) (hF : F.Framed) (hdr : M → List U8 × M) (pkt : M → Packet → List U8 × M)
    (trl : M → List U8 × M) (wire : Packet → Packet) (info : GlobalInfo) (m : M) (d : D) (good : Packet → Prop)
    (sync : M → D → Prop) (h : Undoes F hdr pkt trl wire info m d good sync)
    (hw : ∀ p, (wire p).data = p.data ∧ (p.is_corrupted = false → (wire p).is_corrupted = false))
    (hgood : ∀ p : Packet, 0 < p.data.length → p.data.length ≤ (dims.map fun d => d.1 * d.2).sum + 1 → good p)
    (fs : List Frame) (hfs : ∀ f ∈ fs, Footage v dims f) :
    ∃ (ps : List Packet) (ce' : EncContext (Option Pic × List Packet)),
      EncContext.run (videoEncoder dims x) ⟨none, []⟩ (fs.flatMap fun f => [.send f, .receive]) =
        .ok (ps.flatMap fun p => [.unit (.ok ()), .packet (.ok p)], ce') ∧
    ∀ file, file = Mux.fileBytes hdr pkt trl m ps → ∀ (acts : Nat → Act), (∀ c, (acts c).fail = none) → ∀ cap : Nat,
    ∃ c1, readHeaders F.guided.demuxer accBuffered (file.length + 2) (Context.new ⟨d, 0, none⟩ (Acc.withCapacity cap ⟨file, 0, acts, 0⟩)) =
        .ok (.ok (), c1) ∧
    ∀ n, n ≤ fs.length → ∀ bs : List Press,
    ∃ os v1, Viewer.run F (file.length + 1) ⟨c1, []⟩ (List.replicate n .next ++ .mark :: (bs ++ [.go 0])) = .ok (os, v1) ∧
    ∀ (s : Option Pic) (k N : Nat), 1 < k → fs.length + 1 < N →
    ∃ gs d' c' K, playFrom (videoDecoder v dims x) F.guided.demuxer accBuffered (file.length + 1) k N ⟨x, s, []⟩ v1.ctx =
        .ok (.ok gs, d', c') ∧ FirstKey dims fs n K ∧ Resumes v dims fs (ps.map (kept info.streams wire)) K gs := by
  obtain ⟨ce', he⟩ := encoder_run hd x fs none hfs
  refine ⟨_, ce', he, ?_⟩
  have hpk : ∀ p ∈ (encMachine dims).all none fs, good p ∧ p.is_corrupted = false := by
    intro p hp
    obtain ⟨i, hi⟩ := List.getElem?_of_mem hp
    rw [packets_get] at hi
    cases hf : fs[i]? with
    | none => rw [hf] at hi; cases hi
    | some f =>
      rw [hf] at hi
      cases hi
      have := coded_short (tight_picture (hfs f (List.mem_of_getElem? hf)).2) ((wanted f).getD .OTHER)
        (if i = 0 then none else fs[i - 1]?.map (picture dims))
      exact ⟨hgood _ this.1 this.2, rfl⟩
  have hcount := packets_length dims fs none
  have hpres := fun qs hl hq => watch_presents hd hfs (qs := qs) hl hq
  generalize (encMachine dims).all none fs = ps at *
  intro file hfile acts ha cap
  obtain ⟨dh, hh, hsync⟩ := h.header
  have hh' : F.head d ⟨none, none, []⟩ file = some ((hdr m).1.length, dh, info) := by
    rw [hfile, Mux.fileBytes, List.append_assoc]
    exact hF.headStable _ _ _ _ _ hh
  obtain ⟨c1, h1, h2, h3, h4, h5, h6⟩ := jump_headers F.guided (guided_framed hF) guided_noStepsBack file acts ha (file.length + 1)
    (Context.new ⟨d, 0, none⟩ (Acc.withCapacity cap ⟨file, 0, acts, 0⟩)) (.current (hdr m).1.length) ⟨dh, 0 + (hdr m).1.length, none⟩ info
    (Acc.withCapacity_inv cap ⟨file, 0, acts, 0⟩ rfl) rfl (by
      simp only [Context.new, Acc.withCapacity, Format.guided, List.drop_zero, hh', Option.map_some])
    (by split <;> omega)
  have hk : c1.reader.index = (hdr m).1.length := by rw [h6]; simp [goal, Context.new, Acc.withCapacity]
  refine ⟨c1, h1, fun n hn bs => ?_⟩
  have hfilm : OnFilm file pkt trl sync good ((hdr m).1.length, dh) ps :=
    ⟨(hdr m).2, hsync, fun p hp => (hpk p hp).1, by rw [hfile, Mux.fileBytes, List.append_assoc, List.drop_left]⟩
  obtain ⟨s', r1, r2⟩ := film_nexts (streams := info.streams) (marks := []) hF h n hfilm (by omega)
  obtain ⟨v1, a1, a2⟩ := run_follows hF ha (Nat.le_refl _) (List.replicate n .next ++ .mark :: (bs ++ [.go 0])) (v := ⟨c1, []⟩)
    (r := ⟨((hdr m).1.length, dh), false, info.streams, []⟩)
    ⟨h2, h3, by simp [h4, Guided.here], by simp [h4], (fun _ => by simp [h4, hk]), by simp [h5], rfl⟩
  refine ⟨_, v1, a1, fun s k N hk hN => ?_⟩
  obtain ⟨t1, t2⟩ := film_run hF h bs (r := ⟨s', false, info.streams, [s']⟩) ⟨_, r2⟩ (by
    intro s hs
    rw [List.mem_singleton.1 hs]
    exact ⟨_, r2⟩)
  have hback : ∃ marks, (Reel.run F file ⟨((hdr m).1.length, dh), false, info.streams, []⟩
      (List.replicate n .next ++ .mark :: (bs ++ [.go 0]))).2 = ⟨s', true, info.streams, marks⟩ := by
    rw [Reel.run_append, r1]
    simp only [Reel.run, Reel.press, List.nil_append, Reel.run_append]
    generalize Reel.run F file ⟨s', false, info.streams, [s']⟩ bs = z at t1 t2
    obtain ⟨zs, y⟩ := z
    obtain ⟨t, ht⟩ := t2
    simp only at t1 ht
    rw [← ht]
    exact ⟨_, by simp only [List.cons_append, List.getElem?_cons_zero, t1]; rfl⟩
  obtain ⟨marks, hback⟩ := hback
  rw [hback] at a2
  obtain ⟨v2, b1, b2⟩ := press_follows hF ha (Nat.le_refl _) a2 .next
  obtain ⟨v3, e1, _⟩ := run_follows hF ha (Nat.le_refl _) (List.replicate ((ps.drop n).length + 1) .next) b2
  simp only [Reel.press, if_true] at e1 b1
  rw [show (⟨s', false, info.streams, marks⟩ : Reel D) = ⟨(s'.1, s'.2), false, info.streams, marks⟩ from rfl, nexts_events] at e1
  obtain ⟨m', f1, f2, f3⟩ := r2
  rw [f3, events_packets hF h info.streams 1 _ _ _ f2 f1, run_nexts] at e1
  have hcont : readEvent F.guided.demuxer accBuffered (file.length + 1) v1.ctx = .ok (.ok .Continue, v2.ctx) := by
    simp only [Viewer.press] at b1
    cases hr : readEvent F.guided.demuxer accBuffered (file.length + 1) v1.ctx with
    | error e => rw [hr] at b1; cases b1
    | ok y =>
      obtain ⟨y, c⟩ := y
      rw [hr] at b1
      cases b1
      rfl
  have hread : readEvents F.guided.demuxer accBuffered (file.length + 1) (((ps.drop n).map (kept info.streams wire)).length + 1) v2.ctx =
      .ok (((ps.drop n).map (kept info.streams wire)).map (fun p => .ok (.NewPacket p)) ++ [.ok .Eof], v3.ctx) := by
    rw [List.length_map]
    cases hr : readEvents F.guided.demuxer accBuffered (file.length + 1) ((ps.drop n).length + 1) v2.ctx with
    | error e => rw [hr] at e1; cases e1
    | ok y =>
      obtain ⟨xs, c⟩ := y
      rw [hr] at e1
      simp only [ok_bind, pure_eq_ok, Except.ok.injEq, Prod.mk.injEq] at e1
      obtain ⟨e2, e3⟩ := e1
      rw [← e3]
      have e4 := (List.map_inj_right (fun _ _ => Option.some.inj)).1 (e2.trans (by
        rw [List.map_map, List.map_map]; rfl : _ = List.map some (List.map Except.ok (_ ++ _))))
      rw [e4, List.map_append, List.map_map, List.map_map]
      rfl
  obtain ⟨d', g1⟩ := playChecked_run hd x hk _ (N - 1) none v2.ctx v3.ctx (by simp; omega) (fun _ h => nomatch h) hread
  have hplay : playFrom (videoDecoder v dims x) F.guided.demuxer accBuffered (file.length + 1) k N ⟨x, s, []⟩ v1.ctx =
      .ok (.ok (watch v dims none ((ps.drop n).map (kept info.streams wire))), d', v3.ctx) := by
    obtain ⟨N, rfl⟩ : ∃ j, N = j + 1 := ⟨N - 1, by omega⟩
    simp only [playFrom, DecContext.flush, videoDecoder, ok_bind, pure_eq_ok, playChecked, hcont]
    exact g1
  have hlen : ((ps.take n).map fun p => { kept info.streams wire p with is_corrupted := true }).length = n := by
    rw [List.length_map, List.length_take]; omega
  have hget : ∀ i, n ≤ i → ((ps.take n).map (fun p => { kept info.streams wire p with is_corrupted := true }) ++
      (ps.drop n).map (kept info.streams wire))[i]? = (ps.map (kept info.streams wire))[i]? := by
    intro i hi
    rw [List.getElem?_append_right (by omega), hlen, List.getElem?_map, List.getElem?_drop, List.getElem?_map]
    congr 2
    omega
  have hget' : ∀ i q, i < n → ((ps.take n).map (fun p => { kept info.streams wire p with is_corrupted := true }) ++
      (ps.drop n).map (kept info.streams wire))[i]? = some q → q.is_corrupted = true := by
    intro i q hi hq
    rw [List.getElem?_append_left (by omega)] at hq
    obtain ⟨p, _, rfl⟩ := List.mem_map.1 (List.mem_of_getElem? hq)
    rfl
  have hl : ((ps.take n).map (fun p => { kept info.streams wire p with is_corrupted := true }) ++
      (ps.drop n).map (kept info.streams wire)).length = fs.length := by
    simp only [List.length_append, hlen, List.length_map, List.length_drop]; omega
  have hdrop : ((ps.take n).map (fun p => { kept info.streams wire p with is_corrupted := true }) ++
      (ps.drop n).map (kept info.streams wire)).drop n = (ps.drop n).map (kept info.streams wire) := by
    conv => lhs; arg 1; rw [← hlen]
    exact List.drop_left
  generalize (ps.take n).map (fun p => { kept info.streams wire p with is_corrupted := true }) ++
      (ps.drop n).map (kept info.streams wire) = qs at hget hget' hl hdrop
  have hlost : ∀ k, Lost qs k ↔ k < n := by
    intro k
    constructor
    · rintro ⟨q, q1, q2⟩
      rcases Nat.lt_or_ge k n with hkn | hkn
      · exact hkn
      · rw [hget k hkn] at q1
        obtain ⟨p, hp, rfl⟩ := List.mem_map.1 (List.mem_of_getElem? q1)
        have hc : (kept info.streams wire p).is_corrupted = false := (hw p).2 (hpk p hp).2
        rw [hc] at q2
        cases q2
    · intro hkn
      have : qs[k]? = some qs[k] := List.getElem?_eq_getElem (by omega)
      exact ⟨_, this, hget' k _ hkn this⟩
  have hp := hpres qs hl (by
    intro i p q p1 q1
    rcases Nat.lt_or_ge i n with hi | hi
    · exact .inl (hget' i q hi q1)
    · rw [hget i hi, List.getElem?_map, p1] at q1
      cases q1
      exact .inr (hw p).1) (fs.length - n) n none (by omega) (.inr ⟨by
        rintro ⟨q1, j, q2, _, q3⟩
        exact q3 (n - 1) q2 (Nat.le_refl _) ((hlost _).2 (by omega)), rfl⟩)
  rw [hdrop] at hp
  obtain ⟨K, k1, k2, k3⟩ := Presents.resumes hlost hp hn (Nat.le_refl _) (fun j _ _ => by omega)
  refine ⟨_, d', v3.ctx, K, hplay, k1, k2, fun i g hg => ?_⟩
  obtain ⟨f, q, l1, l2, l3⟩ := k3 i g hg
  exact ⟨f, q, l1, by rw [← hget _ (by have := k1.1; omega)]; exact l2, l3⟩

/-! ### example: the small film, from its second and third frames on -/

/-- The types and first planes of what is shown after going back. -/
def rewound (n : Nat) (bs : List Press) : List (FrameType × List U8) :=
  let file := Mux.fileBytes avHdr avPkt avTrl 0 ((encMachine tinyDims).all none tinyFilm)
  match readHeaders avFormat.guided.demuxer accBuffered (file.length + 2)
      (Context.new ⟨(), 0, none⟩ (Acc.withCapacity 3 ⟨file, 0, fun k => ⟨none, k % 3⟩, 0⟩)) with
  | .ok (.ok (), c1) =>
    match Viewer.run avFormat (file.length + 1) ⟨c1, []⟩ (List.replicate n .next ++ .mark :: (bs ++ [.go 0])) with
    | .ok (_, v1) =>
      match playFrom (videoDecoder tinyVideo tinyDims [9]) avFormat.guided.demuxer accBuffered (file.length + 1) 2 7
          ⟨[9], some [[1, 1, 1, 1], [1], [1]], []⟩ v1.ctx with
      | .ok (.ok gs, _, _) => gs.map fun g => ((wanted g).getD .OTHER, (picture tinyDims g).headD [])
      | _ => []
    | _ => []
  | _ => []

example : [rewound 1 [.next, .mark, .next, .go 1, .next, .next, .next, .next, .next], rewound 2 [], rewound 0 [.next, .go 0, .next],
      rewound 3 []] = [
    [(.I, [8, 8, 8, 8]), (.P, [8, 8, 8, 7]), (.SKIP, [8, 8, 8, 7])],
    [(.I, [8, 8, 8, 8]), (.P, [8, 8, 8, 7]), (.SKIP, [8, 8, 8, 7])],
    [(.I, [1, 2, 3, 4]), (.P, [1, 2, 3, 9]), (.I, [8, 8, 8, 8]), (.P, [8, 8, 8, 7]), (.SKIP, [8, 8, 8, 7])],
    []] := by decide +kernel

/-- The hypotheses on the format. -/
example : Undoes avFormat avHdr avPkt avTrl (fun p => { Packet.new with data := p.data, stream_index := 0 })
      theInfo 0 () (fun p => 0 < p.data.length ∧ p.data.length < 256) (fun _ _ => True) ∧
    ((tinyDims.map fun d => d.1 * d.2).sum + 1 = 7) ∧ FirstKey tinyDims tinyFilm 1 2 :=
  ⟨av_undoes, by decide, by decide, by decide, by decide +kernel, fun j h1 h2 => by
    obtain rfl : j = 1 := by omega
    decide +kernel⟩

end Verif.RoundTrip
