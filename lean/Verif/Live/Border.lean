import Verif.Live.Large

/-!
# C142 with overflow checks: which calls panic

`c142_checked_partial` says so for records within the buffer, `c142_cut_checked_partial` for all others only that a panic is
possible. Here: exactly those calls panic whose header or record lies in the buffered bytes and reaches over a multiple of the
size of the address space. A record that is longer than what is buffered never makes `read_event` panic, wherever it ends.
-/

namespace Verif.Live
open Verif Verif.Io Verif.Acc Verif.Frame Verif.Stream Verif.Packet Verif.Demux

variable {R D : Type} {dev : Dev R} {t : Acc.Target}

/-- The next `k` bytes are buffered and reach over (or up to) a multiple of `2^b`. -/
def Crosses (b : Nat) (r : LAcc R) (k : Nat) : Prop := k ≤ (win r).length ∧ r.index / 2 ^ b ≠ (r.index + k) / 2 ^ b

instance (b : Nat) (r : LAcc R) (k : Nat) : Decidable (Crosses b r k) := by unfold Crosses; infer_instance

/-- The reader without bounds, which panics when such bytes are skipped. -/
def bordered (b : Nat) (dev : Dev R) : Buffered (LAcc R) where
  fillBuf := fillBuf dev
  data := data
  grow r n := .ok (grow r n)
  seek r sf := match sf with
    | .current d => if 0 ≤ d ∧ Crosses b r d.toNat then .error .overflow else seek dev r sf
    | _ => seek dev r sf

theorem div_add_eq {i k m : Nat} (hm : 0 < m) : i / m = (i + k) / m ↔ i % m + k < m := by
  have h1 := Nat.div_add_mod i m
  constructor
  · intro h
    have h2 := Nat.div_add_mod (i + k) m
    have h3 := Nat.mod_lt (i + k) hm
    rw [← h] at h2
    omega
  · intro h
    have : i + k = (i % m + k) + m * (i / m) := by omega
    rw [this, Nat.add_mul_div_left _ _ hm, Nat.div_eq_of_lt h, Nat.zero_add]

theorem seek_border (hc : t.checks = true) (hb : Bounded dev) {r' r : LAcc R} (h : Peer t.bits False r' r) (k0 k : Nat)
    (hk : cutBy t.bits (win r).length k0 = k) :
    if Crosses t.bits r k then seekN t dev r' (.current k0) = .error .overflow
    else ∃ v, seekN t dev r' (.current k0) = .ok v := by
  have hn := seekN_agree (t := t) hb h.neat (.current k0)
  have hm : (nview r').seek t dev (.current k0) =
      (if k ≤ (win r).length then do
        let b ← (nview r').take t k
        return (.ok b.pos, b)
      else .ok ((nview r').leave t dev (.current (k - (win r).length)))) := by
    simp only [NQueue.seek]
    rw [if_neg (by omega), Int.toNat_natCast, show (nview r').q = win r from h.held]
    unfold cutBy at hk
    by_cases hc : k0 % 2 ^ t.bits ≤ (win r).length
    · rw [if_pos hc] at hk ⊢
      subst hk
      rw [if_pos hc]
    · rw [if_neg hc] at hk ⊢
      subst hk
      have := Nat.mod_le k0 (2 ^ t.bits)
      rw [if_neg (by omega)]
  rw [hm] at hn
  have hcr := div_add_eq (i := r.index) (k := k) (m := 2 ^ t.bits) (Nat.two_pow_pos _)
  rw [← h.idx] at hcr
  by_cases hle : k ≤ (win r).length
  · rw [if_pos hle] at hn
    by_cases hi : r'.index + k < 2 ^ t.bits
    · rw [if_neg (show ¬ Crosses t.bits r k from fun hx => hx.2 (hcr.2 hi))]
      have ht : (nview r').take t k = .ok ⟨r'.inner, (win r').drop k, r'.buf.length, r'.index + k,
          r'.pos + min k (win r').length⟩ := by
        simp only [NQueue.take, NQueue.ahead]
        rw [if_pos (show (nview r').pos + k < _ from hi)]; rfl
      rw [ht] at hn
      obtain ⟨q', b1, _⟩ := hn
      exact ⟨_, b1⟩
    · rw [if_pos (show Crosses t.bits r k from ⟨hle, fun hx => hi (hcr.1 hx)⟩)]
      have ht : (nview r').take t k = .error .overflow := by
        simp only [NQueue.take, NQueue.ahead]
        rw [if_neg (show ¬ (nview r').pos + k < _ from hi), hc]; rfl
      rw [ht] at hn
      exact hn
  · rw [if_neg (show ¬ Crosses t.bits r k from fun hx => hle hx.1)]
    rw [if_neg hle] at hn
    obtain ⟨q', b1, _⟩ := hn
    exact ⟨_, b1⟩

/-- Where the code without bounds returns `x` and leaves `d`, the target (`f`) and the reader with borders (`g`) both do, or both
panic. -/
def Alongside (t : Acc.Target) {X : Type} (f g : Rust (X × Context D (LAcc R))) (x : X) (d : Context D (LAcc R)) : Prop :=
  (∃ d', f = .ok (x, d') ∧ g = .ok (x, d) ∧ CPeer t.bits False d' d) ∨ (f = .error .overflow ∧ g = .error .overflow)

theorem bordered_seek {b : Nat} {r : LAcc R} {k : Nat} :
    (bordered b dev).seek r (.current k) = if Crosses b r k then .error .overflow else seek dev r (.current k) := by
  simp only [bordered, Int.toNat_natCast, show (0 : Int) ≤ k from Int.natCast_nonneg k, true_and]

theorem event_border (hc : t.checks = true) (hb : Bounded dev) (F : Format D)
    (hF : ∀ d w k ev d' n, F.parse d w = some (k, ev, d') → ev ≠ .MoreDataNeeded n) (fuel : Nat) :
    ∀ {c' c d : Context D (LAcc R)} {x : Except Err Event}, CPeer t.bits False c' c →
    readEvent (demuxer (cut t.bits F)) (buffered dev) fuel c = .ok (x, d) → 2 * d.reader.buf.length < 2 ^ t.bits →
    Alongside t (readEvent (demuxer F) (bufferedN t dev) fuel c') (readEvent (demuxer (cut t.bits F)) (bordered t.bits dev) fuel c)
      x d := by
  induction fuel with
  | zero => intro c' c d x _ h; cases h
  | succ fuel ih =>
    intro c' c d x hp h hsz
    have hcall := event_at (F := cut t.bits F) (d := c.demuxer) hp.reader.tidy
    have hcall' := event_at (F := F) (d := c'.demuxer) hp.reader.neat.tidy
    rw [hp.demuxer, hp.reader.held] at hcall'
    cases hpar : F.parse c.demuxer (win c.reader) with
    | some v =>
      obtain ⟨k0, ev, d1⟩ := v
      obtain ⟨k, hk⟩ : ∃ k, cutBy t.bits (win c.reader).length k0 = k := ⟨_, rfl⟩
      have hparc : (cut t.bits F).parse c.demuxer (win c.reader) = some (k, ev, d1) := by
        simp only [cut, hpar, Option.map_some, hk]
      rw [hparc] at hcall
      rw [hpar] at hcall'
      have hcall'' : (demuxer F).readEvent c'.demuxer c'.reader = .ok (.ok (.current k0, ev), d1, c'.reader) := by
        rw [hp.demuxer]; exact hcall'
      have hd := deliver c.info.streams ev (fun n => hF _ _ _ _ _ n hpar)
      have hd' : Delivered c'.info.streams ev (completed c.info.streams ev) := by rw [hp.info]; exact hd
      obtain ⟨y, q, s1, s2, s3, s4⟩ := seek_peer (t := t) (sharp := False) hb hp.reader k0 k hk (fun hs => hs.elim)
      have s1' : (buffered dev).seek c.reader (.current k) = .ok (y, q) := s1
      have hborder := seek_border hc hb hp.reader k0 k hk
      by_cases hx : Crosses t.bits c.reader k
      · rw [if_pos hx] at hborder
        have o2' : (bufferedN t dev).seek c'.reader (.current k0) = .error .overflow := hborder
        have o3' : (bordered t.bits dev).seek c.reader (.current k) = .error .overflow := by rw [bordered_seek, if_pos hx]
        refine .inr ⟨?_, ?_⟩
        · simp [readEvent, readEventInternal, hcall'', o2']
        · simp [readEvent, readEventInternal, hcall, o3']
      · rw [if_neg hx] at hborder
        obtain ⟨v, hv⟩ := hborder
        have s1'' : (bordered t.bits dev).seek c.reader (.current k) = .ok (y, q) := by rw [bordered_seek, if_neg hx]; exact s1
        rcases s4 with ⟨y', q', t1, t2, t3⟩ | ⟨_, o2, _⟩
        · have t1' : (bufferedN t dev).seek c'.reader (.current k0) = .ok (y', q') := t1
          refine .inl ?_
          cases y with
          | error e =>
            have hy := (t3 e).1 rfl
            subst hy
            rw [readEvent_answers fuel (.seekError hcall s1')] at h
            cases h
            exact ⟨_, readEvent_answers fuel (.seekError hcall'' t1'), readEvent_answers fuel (.seekError hcall s1''),
              ⟨rfl, hp.info, hp.user, t2⟩⟩
          | ok m =>
            cases y' with
            | error e => exact absurd ((t3 e).2 rfl) (by simp)
            | ok m' =>
              rw [readEvent_answers fuel (.event hcall s1' hd)] at h
              cases h
              exact ⟨_, readEvent_answers fuel (.event hcall'' t1' hd'), readEvent_answers fuel (.event hcall s1'' hd),
                ⟨rfl, by rw [hp.info], hp.user, t2⟩⟩
        · rw [o2] at hv; cases hv
    | none =>
      have hparc : (cut t.bits F).parse c.demuxer (win c.reader) = none := by simp only [cut, hpar, Option.map_none]
      rw [hparc] at hcall
      rw [hpar] at hcall'
      have hcall'' : (demuxer F).readEvent c'.demuxer c'.reader =
          .ok (.error (.MoreDataNeeded (F.need c.demuxer (win c.reader))), c'.demuxer, c'.reader) := by
        rw [hp.demuxer]; exact hcall'
      have ha : Asks (demuxer (cut t.bits F)) (buffered dev) c (F.need c.demuxer (win c.reader)) _ := .error hcall
      have hab : Asks (demuxer (cut t.bits F)) (bordered t.bits dev) c (F.need c.demuxer (win c.reader)) _ := .error hcall
      have ha' : Asks (demuxer F) (bufferedN t dev) c' _ _ := .error hcall''
      rw [readEvent_asks_eq fuel ha] at h
      rw [readEvent_asks_eq fuel ha', readEvent_asks_eq fuel hab]
      generalize F.need c.demuxer (win c.reader) = n at *
      have e1 : (buffered dev).data c.reader = .ok (win c.reader) := hp.reader.tidy.data
      have e1b : (bordered t.bits dev).data c.reader = .ok (win c.reader) := hp.reader.tidy.data
      have e2 : (bufferedN t dev).data c'.reader = .ok (win c.reader) := by
        rw [← hp.reader.held]; exact hp.reader.neat.tidy.data
      simp only [e1, ok_bind] at h
      simp only [e2, e1b, ok_bind]
      by_cases h4 : n ≤ (win c.reader).length
      · rw [if_pos h4] at h ⊢
        rw [if_pos h4]
        exact ih hp h hsz
      · rw [if_neg h4] at h ⊢
        rw [if_neg h4]
        obtain ⟨g1, g2⟩ := grow_tidy hp.reader.tidy n
        have hbig : 2 * (c.reader.buf.length + n) < 2 ^ t.bits := by
          obtain ⟨q, a1, a2, a3⟩ := fill_does hb g1
          obtain ⟨f1, f2⟩ := fill_tidy hb g1 a1
          rw [show ((buffered dev).grow c.reader n >>= (buffered dev).fillBuf) = fillBuf dev (grow c.reader n) from rfl, a1] at h
          simp only [ok_bind] at h
          generalize ((view (grow c.reader n)).fill dev).1 = z at h
          have : q.buf.length ≤ d.reader.buf.length := by
            cases z with
            | error e => cases h; exact Nat.le_refl _
            | ok l =>
              simp only at h
              rw [show (buffered dev).data q = .ok (win q) from f1.data] at h
              simp only [ok_bind] at h
              split at h
              · cases h; exact Nat.le_refl _
              · exact (event_size hb (cut t.bits F) fuel (c := { c with reader := q }) f1 h).2
          omega
        obtain ⟨r1, b1, b2⟩ := grow_peer hp.reader n hbig
        obtain ⟨z, q', q, k1, k2, k3, k4, k5⟩ := fill_peer hb b2
        rw [show ((buffered dev).grow c.reader n >>= (buffered dev).fillBuf) = fillBuf dev (grow c.reader n) from rfl, k2] at h
        rw [show ((bordered t.bits dev).grow c.reader n >>= (bordered t.bits dev).fillBuf) = fillBuf dev (grow c.reader n) from rfl, k2]
        rw [show ((bufferedN t dev).grow c'.reader n >>= (bufferedN t dev).fillBuf) = (growN t c'.reader n >>= fillBufN t dev) from rfl,
          b1, ok_bind, k1]
        simp only [ok_bind] at h ⊢
        cases z with
        | error e => cases h; exact .inl ⟨_, rfl, rfl, ⟨hp.demuxer, hp.info, hp.user, k3⟩⟩
        | ok l =>
          simp only at h ⊢
          rw [show (buffered dev).data q = .ok (win q) from k3.tidy.data] at h
          rw [show (bordered t.bits dev).data q = .ok (win q) from k3.tidy.data]
          rw [show (bufferedN t dev).data q' = .ok (win q) by rw [← k3.held]; exact k3.neat.tidy.data]
          simp only [ok_bind] at h ⊢
          by_cases h5 : (win q).length ≤ (win c.reader).length
          · rw [if_pos h5] at h ⊢
            rw [if_pos h5]
            cases h; exact .inl ⟨_, rfl, rfl, ⟨hp.demuxer, hp.info, hp.user, k3⟩⟩
          · rw [if_neg h5] at h ⊢
            rw [if_neg h5]
            exact ih (c := { c with reader := q }) (c' := { c' with reader := q' }) ⟨hp.demuxer, hp.info, hp.user, k3⟩ h hsz

theorem events_border (hc : t.checks = true) (hb : Bounded dev) (F : Format D)
    (hF : ∀ d w k ev d' n, F.parse d w = some (k, ev, d') → ev ≠ .MoreDataNeeded n) (fuel n : Nat) :
    ∀ {c' c d : Context D (LAcc R)} {xs : List (Except Err Event)}, CPeer t.bits False c' c →
    readEvents (demuxer (cut t.bits F)) (buffered dev) fuel n c = .ok (xs, d) → 2 * d.reader.buf.length < 2 ^ t.bits →
    Alongside t (readEvents (demuxer F) (bufferedN t dev) fuel n c')
      (readEvents (demuxer (cut t.bits F)) (bordered t.bits dev) fuel n c) xs d := by
  induction n with
  | zero => intro c' c d xs hp h _; cases h; exact .inl ⟨_, rfl, rfl, hp⟩
  | succ n ih =>
    intro c' c d xs hp h hsz
    simp only [readEvents] at h ⊢
    cases h1 : readEvent (demuxer (cut t.bits F)) (buffered dev) fuel c with
    | error e => rw [h1] at h; cases h
    | ok v =>
      obtain ⟨x, c1⟩ := v
      rw [h1, ok_bind] at h
      simp only at h
      cases h2 : readEvents (demuxer (cut t.bits F)) (buffered dev) fuel n c1 with
      | error e => rw [h2] at h; cases h
      | ok v =>
        obtain ⟨ys, c2⟩ := v
        rw [h2] at h
        cases h
        obtain ⟨i1, i2⟩ := event_size hb (cut t.bits F) fuel hp.reader.tidy h1
        obtain ⟨j1, j2, j3⟩ := events_size hb (cut t.bits F) fuel n i1 h2
        rcases event_border hc hb F hF fuel hp h1 (by simp only at hsz; omega) with ⟨c1', k1, k2, k3⟩ | ⟨k1, k2⟩
        · rw [k1, k2]
          simp only [ok_bind]
          rcases ih k3 h2 hsz with ⟨c2', l1, l2, l3⟩ | ⟨l1, l2⟩
          · rw [l1, l2]
            exact .inl ⟨_, rfl, rfl, l3⟩
          · rw [l1, l2]
            exact .inr ⟨rfl, rfl⟩
        · rw [k1, k2]
          exact .inr ⟨rfl, rfl⟩

theorem headers_border (hc : t.checks = true) (hb : Bounded dev) (F : Format D) (fuel : Nat) :
    ∀ {c' c d : Context D (LAcc R)} {x : Except Err Unit}, CPeer t.bits False c' c →
    readHeaders (demuxer (cut t.bits F)) (buffered dev) fuel c = .ok (x, d) → 2 * d.reader.buf.length < 2 ^ t.bits →
    Alongside t (readHeaders (demuxer F) (bufferedN t dev) fuel c')
      (readHeaders (demuxer (cut t.bits F)) (bordered t.bits dev) fuel c) x d := by
  induction fuel with
  | zero => intro c' c d x _ h; cases h
  | succ fuel ih =>
    intro c' c d x hp h hsz
    simp only [readHeaders] at h ⊢
    obtain ⟨z, q', q, k1, k2, k3, k4, k5⟩ := fill_peer hb hp.reader
    rw [show (buffered dev).fillBuf c.reader = fillBuf dev c.reader from rfl, k2] at h
    rw [show (bufferedN t dev).fillBuf c'.reader = fillBufN t dev c'.reader from rfl, k1,
      show (bordered t.bits dev).fillBuf c.reader = fillBuf dev c.reader from rfl, k2]
    simp only [ok_bind] at h ⊢
    cases z with
    | error e => cases h; exact .inl ⟨_, rfl, rfl, ⟨hp.demuxer, hp.info, hp.user, k3⟩⟩
    | ok l =>
      simp only [readHeadersInternal, head_at k3.tidy, ok_bind] at h
      simp only [readHeadersInternal, head_at k3.neat.tidy, head_at k3.tidy, ok_bind, hp.demuxer, hp.info, k3.held]
      cases hpar : F.head c.demuxer c.info (win q) with
      | none =>
        have hparc : (cut t.bits F).head c.demuxer c.info (win q) = none := by simp only [cut, hpar, Option.map_none]
        rw [hparc, show (cut t.bits F).headNeed = F.headNeed from rfl] at h
        rw [hparc, show (cut t.bits F).headNeed = F.headNeed from rfl]
        simp only [ok_bind] at h ⊢
        generalize F.headNeed c.demuxer c.info (win q) = n at h ⊢
        rw [show (buffered dev).grow q n = .ok (grow q n) from rfl] at h
        simp only [ok_bind] at h
        obtain ⟨g1, g2⟩ := grow_tidy k3.tidy n
        have hs := (headers_size hb (cut t.bits F) fuel (c := { c with reader := grow q n }) g1 h).2
        simp only at hs
        obtain ⟨r1, b1, b2⟩ := grow_peer k3 n (by omega)
        rw [show (bufferedN t dev).grow q' n = growN t q' n from rfl, b1,
          show (bordered t.bits dev).grow q n = .ok (grow q n) from rfl]
        simp only [ok_bind]
        exact ih (c := { c with reader := grow q n }) (c' := { demuxer := c.demuxer, reader := r1, info := c.info, user_private := c'.user_private })
          ⟨rfl, rfl, hp.user, b2⟩ h hsz
      | some v =>
        obtain ⟨k0, d1, i1⟩ := v
        obtain ⟨k, hk⟩ : ∃ k, cutBy t.bits (win q).length k0 = k := ⟨_, rfl⟩
        have hparc : (cut t.bits F).head c.demuxer c.info (win q) = some (k, d1, i1) := by
          simp only [cut, hpar, Option.map_some, hk]
        rw [hparc] at h
        rw [hparc]
        simp only at h ⊢
        obtain ⟨y, r1, s1, s2, s3, s4⟩ := seek_peer (t := t) (sharp := False) hb k3 k0 k hk (fun hs => hs.elim)
        have hborder := seek_border hc hb k3 k0 k hk
        rw [show (buffered dev).seek q (.current k) = seek dev q (.current k) from rfl, s1] at h
        rw [show (bufferedN t dev).seek q' (.current k0) = seekN t dev q' (.current k0) from rfl, bordered_seek]
        cases h
        by_cases hx : Crosses t.bits q k
        · rw [if_pos hx] at hborder
          rw [hborder, if_pos hx]
          exact .inr ⟨rfl, rfl⟩
        · rw [if_neg hx] at hborder
          obtain ⟨v, hv⟩ := hborder
          rw [if_neg hx, s1]
          rcases s4 with ⟨y', r1', t1, t2, t3⟩ | ⟨_, o2, _⟩
          · rw [t1]
            exact .inl ⟨_, rfl, rfl, ⟨rfl, rfl, hp.user, t2⟩⟩
          · rw [o2] at hv; cases hv

/-- **C142 for records of any length, with overflow checks, exactly.** Where the code without bounds reads headers and events of
a stream (in the format `cut`, see `c142_cut_partial`), the code on a target with overflow checks returns the same or panics;
and it panics exactly if the reader does that panics when a header or record is skipped that lies in the buffered bytes and
reaches over a multiple of the size of the address space. Missing for C142: that it does not panic, which is false
(`c142_fails`). -/
theorem c142_border_partial (hc : t.checks = true) (hb : Bounded dev) (F : Format D)
    (hF : ∀ d w k ev d' n, F.parse d w = some (k, ev, d') → ev ≠ .MoreDataNeeded n)
    (s : R) (cap fuel n : Nat) (d : D) (h : Except Err Unit) (xs : List (Except Err Event)) (c1 c2 : Context D (LAcc R))
    (h1 : readHeaders (demuxer (cut t.bits F)) (buffered dev) fuel (Context.new d (withCapacity cap s)) = .ok (h, c1))
    (h2 : readEvents (demuxer (cut t.bits F)) (buffered dev) fuel n c1 = .ok (xs, c2))
    (hz : 2 * c2.reader.buf.length < 2 ^ t.bits) :
    (readHeaders (demuxer (cut t.bits F)) (bordered t.bits dev) fuel (Context.new d (withCapacity cap s)) = .ok (h, c1) ∧
      ∃ c1', readHeaders (demuxer F) (bufferedN t dev) fuel (Context.new d (withCapacity cap s)) = .ok (h, c1') ∧
        ((readEvents (demuxer (cut t.bits F)) (bordered t.bits dev) fuel n c1 = .ok (xs, c2) ∧
            ∃ c2', readEvents (demuxer F) (bufferedN t dev) fuel n c1' = .ok (xs, c2') ∧
              c2'.reader.index = c2.reader.index % 2 ^ t.bits) ∨
          (readEvents (demuxer (cut t.bits F)) (bordered t.bits dev) fuel n c1 = .error .overflow ∧
            readEvents (demuxer F) (bufferedN t dev) fuel n c1' = .error .overflow))) ∨
    (readHeaders (demuxer (cut t.bits F)) (bordered t.bits dev) fuel (Context.new d (withCapacity cap s)) = .error .overflow ∧
      readHeaders (demuxer F) (bufferedN t dev) fuel (Context.new d (withCapacity cap s)) = .error .overflow) := by
  have ht0 : Tidy (Context.new d (withCapacity cap s)).reader := (withCapacity_tidy cap s).1
  obtain ⟨i1, i2⟩ := headers_size hb (cut t.bits F) fuel ht0 h1
  obtain ⟨j1, j2, j3⟩ := events_size hb (cut t.bits F) fuel n i1 h2
  have hcap : (Context.new d (withCapacity cap s)).reader.buf.length = cap := by simp [Context.new, withCapacity]
  have hp := new_peer (t := t) (sharp := False) cap s (by omega) d
  rcases headers_border hc hb F fuel hp h1 (by omega) with ⟨c1', k1, k2, k3⟩ | ⟨k1, k2⟩
  · rcases events_border hc hb F hF fuel n k3 h2 hz with ⟨c2', l1, l2, l3⟩ | ⟨l1, l2⟩
    · exact .inl ⟨k2, c1', k1, .inl ⟨l2, c2', l1, l3.reader.idx⟩⟩
    · exact .inl ⟨k2, c1', k1, .inr ⟨l2, l1⟩⟩
  · exact .inr ⟨k2, k1⟩

/-! #### examples -/

/-- Four bytes are buffered: the record of 4 GiB less two bytes is sought, the one of three bytes then reaches over 4 GiB within
the buffer, also if it ends there. A record of 4 GiB and nine bytes is sought over the border without a panic. -/
example :
    firsts (cut 32 boxes) (bordered 32 gigabytes) 3 2 (Context.new [2 ^ 32 - 2, 3] (withCapacity 4 0)) = .error .overflow ∧
    firsts boxes (bufferedN ⟨32, true⟩ gigabytes) 3 2 (Context.new [2 ^ 32 - 2, 3] (withCapacity 4 0)) = .error .overflow ∧
    firsts boxes (bufferedN ⟨32, true⟩ gigabytes) 3 2 (Context.new [2 ^ 32 - 2, 2] (withCapacity 4 0)) = .error .overflow ∧
    firsts (cut 32 boxes) (buffered gigabytes) 3 2 (Context.new [2 ^ 32 - 2, 3] (withCapacity 4 0)) = .ok [[0], [0]] ∧
    firsts boxes (bufferedN ⟨32, true⟩ gigabytes) 3 3 (Context.new [2 ^ 32 - 2, 5] (withCapacity 4 0)) = .ok [[0], [0], [1]] ∧
    firsts (cut 32 boxes) (bordered 32 gigabytes) 3 3 (Context.new [2 ^ 32 - 2, 5] (withCapacity 4 0)) = .ok [[0], [0], [1]] ∧
    firsts boxes (bufferedN ⟨32, true⟩ gigabytes) 3 2 (Context.new [2 ^ 32 + 9] (withCapacity 4 0)) = .ok [[0], [1]] := by
  decide +kernel

/-- The hypotheses of `c142_border_partial`. -/
example : (∀ d w k ev d' n, boxes.parse d w = some (k, ev, d') → ev ≠ .MoreDataNeeded n) ∧ Bounded gigabytes ∧
    (match readHeaders (demuxer (cut 32 boxes)) (buffered gigabytes) 3 (Context.new [2 ^ 32 - 2, 3] (withCapacity 4 0)) with
      | .ok (.ok (), c1) => match readEvents (demuxer (cut 32 boxes)) (buffered gigabytes) 3 2 c1 with
        | .ok (xs, c2) => xs.length == 2 && 2 * c2.reader.buf.length < 2 ^ 32
        | _ => false
      | _ => false) = true :=
  ⟨boxes_framed.answers, gigabytes_bounded, by decide +kernel⟩

end Verif.Live
