import Verif.Live.Narrow
import Verif.Live.Demux

/-!
# Property C142: demuxing streams that are larger than the address space

The demuxer of any format over an `AccReader`, on targets with any width of `usize`: on those of 32 bits a file of more than
4 GiB has positions that are no `usize`.
-/

namespace Verif.Live
open Verif Verif.Io Verif.Acc Verif.Frame Verif.Stream Verif.Packet Verif.Demux

variable {R D : Type} {dev : Dev R} {t : Acc.Target}

/-- `impl Buffered for AccReader`, accreader.rs:86-95, on such a target -/
def bufferedN (t : Acc.Target) (dev : Dev R) : Buffered (LAcc R) := ⟨fillBufN t dev, data, growN t, seekN t dev⟩

/-- The reader on the target and the one without bounds: the same bytes in front of the same reader. -/
structure Peer (b : Nat) (sharp : Prop) (r' r : LAcc R) : Prop where
  neat : Neat b r'
  tidy : Tidy r
  inner : r'.inner = r.inner
  held : win r' = win r
  size : r'.buf.length = r.buf.length
  idx : r'.index = r.index % 2 ^ b
  exact : sharp → r'.index = r.index

variable {sharp : Prop}

theorem Peer.alike {r' r : LAcc R} (h : Peer t.bits sharp r' r) : Alike (nview r') (view r) := ⟨h.inner, h.held, h.size⟩

theorem nfill_pos (b : NQueue R) : (b.fill dev).2.pos = b.pos := by
  unfold NQueue.fill
  split
  · split <;> rfl
  · rfl

theorem fill_pos (b : Queue R) : (b.fill dev).2.pos = b.pos := by
  unfold Queue.fill
  split
  · split <;> rfl
  · rfl

theorem qfill_size (b : Queue R) : (b.fill dev).2.size = b.size := by
  unfold Queue.fill
  split
  · split <;> rfl
  · rfl

theorem fill_peer (hb : Bounded dev) {r' r : LAcc R} (h : Peer t.bits sharp r' r) :
    ∃ x q' q, fillBufN t dev r' = .ok (x, q') ∧ fillBuf dev r = .ok (x, q) ∧ Peer t.bits sharp q' q ∧
      q.buf.length = r.buf.length ∧ q.index = r.index := by
  obtain ⟨q, a1, a2, a3⟩ := fill_does hb h.tidy
  obtain ⟨q', b1, b2, b3⟩ := fillN_agree (dev := dev) hb h.neat
  obtain ⟨e1, e2⟩ := nfill_alike (dev := dev) h.alike
  rw [← a3, ← b3] at e2
  have i1 : q.index = r.index := by
    have := congrArg Queue.pos a3
    rw [fill_pos] at this
    exact this
  have i2 : q'.index = r'.index := by
    have := congrArg NQueue.pos b3
    rw [nfill_pos] at this
    exact this
  have i3 : q.buf.length = r.buf.length := by
    have := congrArg Queue.size a3
    rw [qfill_size] at this
    exact this
  refine ⟨_, q', q, b1, by rw [a1, e1], ⟨b2, a2, e2.inner, e2.held, e2.size, ?_, ?_⟩, i3, i1⟩
  · rw [i1, i2]; exact h.idx
  · intro hs; rw [i1, i2]; exact h.exact hs

theorem grow_peer {r' r : LAcc R} (h : Peer t.bits sharp r' r) (n : Nat) (hn : 2 * (r.buf.length + n) < 2 ^ t.bits) :
    ∃ q', growN t r' n = .ok q' ∧ Peer t.bits sharp q' (grow r n) := by
  have hs := h.size
  have h1 := h.neat.tidy
  have h2 := h.tidy
  have win_grow : ∀ (r : LAcc R), Tidy r → ∀ u, win { r with buf := r.buf ++ u } = win r := by
    intro r ht u
    simp only [win]
    rw [List.drop_append_of_le_length (by have := ht.1; have := ht.2; omega)]
    rw [List.take_append_of_le_length (by have := ht.1; have := ht.2; simp only [List.length_drop]; omega)]
  refine ⟨{ r' with buf := r'.buf ++ List.replicate n 0 }, ?_, ?_⟩
  · simp only [growN]
    rw [t_add (by omega)]
    simp only [ok_bind, pure_eq_ok]
    rw [List.take_of_length_le (by omega), show r'.buf.length + n - r'.buf.length = n by omega]
  · refine ⟨⟨⟨h1.1, ?_⟩, ?_, h.neat.low⟩, ⟨h2.1, ?_⟩, h.inner, ?_, ?_, h.idx, h.exact⟩
    · have := h1.2; simp only [List.length_append]; omega
    · simp only [List.length_append, List.length_replicate]; omega
    · have := h2.2; simp only [grow, List.length_append]; omega
    · rw [win_grow _ h1]
      exact h.held.trans (win_grow r h2 _).symm
    · simp only [grow, List.length_append, List.length_replicate]; omega

/-- How far a seek by `k` goes on a target with `b` bits in front of `n` buffered bytes: the number of bytes loses its
upper bits before it is compared with `n`, not when it is handed on. -/
def cutBy (b n k : Nat) : Nat := if k % 2 ^ b ≤ n then k % 2 ^ b else k

/-- The format whose records have the lengths they are skipped by on such a target. -/
def cut (b : Nat) (F : Format D) : Format D where
  head d i w := (F.head d i w).map fun (k, d', i') => (cutBy b w.length k, d', i')
  headNeed := F.headNeed
  parse d w := (F.parse d w).map fun (k, ev, d') => (cutBy b w.length k, ev, d')
  need := F.need

theorem cutBy_lt {b n k : Nat} (h : k < 2 ^ b) : cutBy b n k = k := by
  unfold cutBy
  rw [Nat.mod_eq_of_lt h]
  split <;> rfl

theorem cut_eq {b : Nat} {F : Format D}
    (hk : (∀ d i w k d' i', F.head d i w = some (k, d', i') → k < 2 ^ b) ∧
      ∀ d w k ev d', F.parse d w = some (k, ev, d') → k < 2 ^ b) : cut b F = F := by
  have h1 : (cut b F).head = F.head := by
    funext d i w
    simp only [cut]
    cases h : F.head d i w with
    | none => rfl
    | some v =>
      obtain ⟨k, d', i'⟩ := v
      simp only [Option.map_some, cutBy_lt (hk.1 _ _ _ _ _ _ h)]
  have h2 : (cut b F).parse = F.parse := by
    funext d w
    simp only [cut]
    cases h : F.parse d w with
    | none => rfl
    | some v =>
      obtain ⟨k, ev, d'⟩ := v
      simp only [Option.map_some, cutBy_lt (hk.2 _ _ _ _ _ h)]
  cases F
  simp only [cut] at h1 h2 ⊢
  rw [h1, h2]

theorem seek_peer (hb : Bounded dev) {r' r : LAcc R} (h : Peer t.bits sharp r' r) (k0 k : Nat)
    (hk : cutBy t.bits (win r).length k0 = k)
    (hsh : sharp → t.checks = true ∧ k ≤ (win r).length) :
    ∃ x q, seek dev r (.current k) = .ok (x, q) ∧ Tidy q ∧ q.buf.length = r.buf.length ∧
      ((∃ y q', seekN t dev r' (.current k0) = .ok (y, q') ∧ Peer t.bits sharp q' q ∧
          (∀ e, x = .error e ↔ y = .error e)) ∨
        (t.checks = true ∧ seekN t dev r' (.current k0) = .error .overflow ∧ 2 ^ t.bits ≤ q.index)) := by
  obtain ⟨q, a1, a2, a3⟩ := seek_does hb h.tidy (.current k)
  have hn := seekN_agree (t := t) hb h.neat (.current k0)
  have hm : (nview r').seek t dev (.current k0) =
      (if k ≤ (win r).length then do
        let b ← (nview r').take t k
        return (.ok b.pos, b)
      else .ok ((nview r').leave t dev (.current (k - (win r).length)))) := by
    simp only [NQueue.seek]
    rw [if_neg (by omega), Int.toNat_natCast, show (nview r').q = win r from h.held]
    unfold cutBy at hk
    by_cases hc : k0 % 2 ^ t.bits ≤ (win r).length
    · rw [if_pos hc] at hk ⊢
      subst hk
      rw [if_pos hc]
    · rw [if_neg hc] at hk ⊢
      subst hk
      have := Nat.mod_le k0 (2 ^ t.bits)
      rw [if_neg (by omega)]
  have hu : (view r).seek dev (.current k) =
      (if k ≤ (win r).length then (.ok (r.index + k), (view r).take k)
      else (view r).leave dev (.current (k - (win r).length))) := by
    simp only [Queue.seek]
    rw [if_neg (by omega), Int.toNat_natCast]; rfl
  rw [hm] at hn
  rw [hu] at a1 a3
  by_cases hc : k ≤ (win r).length
  · rw [if_pos hc] at hn a1 a3
    have hix : q.index = r.index + k := by
      have := congrArg Queue.pos a3
      simp only [Queue.take] at this
      rw [Nat.min_eq_left (show k ≤ (view r).q.length from hc)] at this
      exact this
    refine ⟨_, q, a1, a2, congrArg Queue.size a3, ?_⟩
    by_cases hi : r'.index + k < 2 ^ t.bits
    · have ht : (nview r').take t k = .ok ⟨r'.inner, (win r').drop k, r'.buf.length, r'.index + k,
          r'.pos + min k (win r').length⟩ := by
        simp only [NQueue.take, NQueue.ahead]
        rw [if_pos (show (nview r').pos + k < _ from hi)]; rfl
      rw [ht] at hn
      obtain ⟨q', b1, b2, b3⟩ := hn
      refine .inl ⟨_, q', b1, ⟨b2, a2, ?_, ?_, ?_, ?_, ?_⟩, by simp⟩
      · exact (congrArg NQueue.inner b3).trans (h.inner.trans (congrArg Queue.inner a3).symm)
      · refine (congrArg NQueue.q b3).trans ?_
        refine Eq.trans ?_ (congrArg Queue.q a3).symm
        simp only [Queue.take, h.held]; rfl
      · exact (congrArg NQueue.size b3).trans (h.size.trans (congrArg Queue.size a3).symm)
      · refine (congrArg NQueue.pos b3).trans ?_
        simp only
        rw [hix, ← Nat.mod_eq_of_lt hi, h.idx, Nat.mod_add_mod]
      · intro hs
        refine (congrArg NQueue.pos b3).trans ?_
        simp only
        rw [hix, h.exact hs]
    · cases hch : t.checks with
      | true =>
        refine .inr ⟨rfl, ?_, ?_⟩
        · have ht : (nview r').take t k = .error .overflow := by
            simp only [NQueue.take, NQueue.ahead]
            rw [if_neg (show ¬ (nview r').pos + k < _ from hi), hch]; rfl
          rw [ht] at hn
          exact hn
        · rw [hix]
          have := Nat.mod_le r.index (2 ^ t.bits)
          rw [← h.idx] at this
          omega
      | false =>
        have ht : (nview r').take t k = .ok ⟨r'.inner, (win r').drop k, r'.buf.length, (r'.index + k) % 2 ^ t.bits,
            r'.pos + min k (win r').length⟩ := by
          simp only [NQueue.take, NQueue.ahead]
          rw [if_neg (show ¬ (nview r').pos + k < _ from hi), hch]; rfl
        rw [ht] at hn
        obtain ⟨q', b1, b2, b3⟩ := hn
        refine .inl ⟨_, q', b1, ⟨b2, a2, ?_, ?_, ?_, ?_, ?_⟩, by simp⟩
        · exact (congrArg NQueue.inner b3).trans (h.inner.trans (congrArg Queue.inner a3).symm)
        · refine (congrArg NQueue.q b3).trans ?_
          refine Eq.trans ?_ (congrArg Queue.q a3).symm
          simp only [Queue.take, h.held]; rfl
        · exact (congrArg NQueue.size b3).trans (h.size.trans (congrArg Queue.size a3).symm)
        · refine (congrArg NQueue.pos b3).trans ?_
          simp only
          rw [hix, h.idx, Nat.mod_add_mod]
        · intro hs
          have := (hsh hs).1
          rw [hch] at this
          cases this
  · rw [if_neg hc] at hn a1 a3
    have hno : ¬ sharp := fun hs => hc (hsh hs).2
    obtain ⟨q', b1, b2, b3⟩ := hn
    simp only [Queue.leave] at a1 a3
    rw [show (nview r').inner = r.inner from h.inner] at b1 b3
    rw [show (view r).inner = r.inner from rfl] at a1 a3
    cases hd : dev.seek r.inner (.current (k - (win r).length)) with
    | mk x s =>
      rw [hd] at a1 a3 b1 b3
      cases x with
      | error e =>
        refine ⟨_, q, a1, a2, congrArg Queue.size a3, .inl ⟨_, q', b1, ⟨b2, a2, ?_, ?_, ?_, ?_, fun h => absurd h hno⟩, fun _ => Iff.rfl⟩⟩
        · exact (congrArg NQueue.inner b3).trans (congrArg Queue.inner a3).symm
        · exact (congrArg NQueue.q b3).trans (h.held.trans (congrArg Queue.q a3).symm)
        · exact (congrArg NQueue.size b3).trans (h.size.trans (congrArg Queue.size a3).symm)
        · refine (congrArg NQueue.pos b3).trans ?_
          have : q.index = r.index := congrArg Queue.pos a3
          rw [this]; exact h.idx
      | ok m =>
        simp only at a1 a3 b1 b3
        obtain ⟨e1, e2⟩ := nfill_alike (dev := dev) (b := ⟨s, [], (nview r').size, m % 2 ^ t.bits, 0⟩)
          (q := ⟨s, [], (view r).size, m⟩) ⟨rfl, rfl, h.size⟩
        have p1 := nfill_pos (dev := dev) (⟨s, [], (nview r').size, m % 2 ^ t.bits, 0⟩ : NQueue R)
        have p2 := fill_pos (dev := dev) (⟨s, [], (view r).size, m⟩ : Queue R)
        have p3 := qfill_size (dev := dev) (⟨s, [], (view r).size, m⟩ : Queue R)
        simp only at p1 p2 p3
        generalize NQueue.fill dev (⟨s, [], (nview r').size, m % 2 ^ t.bits, 0⟩ : NQueue R) = f' at b1 b3 e1 e2 p1
        generalize Queue.fill dev (⟨s, [], (view r).size, m⟩ : Queue R) = f at a1 a3 e1 e2 p2 p3
        obtain ⟨x', f'⟩ := f'
        obtain ⟨x, f⟩ := f
        simp only at e1 e2 p1 p2 p3
        subst e1
        cases x' with
        | error e =>
          simp only at a1 a3 b1 b3
          subst a3 b3
          exact ⟨_, q, a1, a2, p3, .inl ⟨_, q', b1, ⟨b2, a2, e2.inner, e2.held, e2.size,
            (show q'.index = _ from p1).trans (congrArg (· % 2 ^ t.bits) (show q.index = m from p2)).symm,
            fun h => absurd h hno⟩, fun _ => Iff.rfl⟩⟩
        | ok l =>
          simp only at a1 a3 b1 b3
          subst a3 b3
          exact ⟨_, q, a1, a2, p3, .inl ⟨_, q', b1, ⟨b2, a2, e2.inner, e2.held, e2.size,
            (show q'.index = _ from p1).trans (congrArg (· % 2 ^ t.bits) (show q.index = m from p2)).symm,
            fun h => absurd h hno⟩, fun _ => by simp⟩⟩

/-! ### the calls of the demuxing context -/

/-- Contexts that differ in their readers only. -/
structure CPeer (b : Nat) (sharp : Prop) (c' c : Context D (LAcc R)) : Prop where
  demuxer : c'.demuxer = c.demuxer
  info : c'.info = c.info
  user : c'.user_private = c.user_private
  reader : Peer b sharp c'.reader c.reader

theorem event_at {F : Format D} {d : D} {r : LAcc R} (h : Tidy r) :
    (demuxer F).readEvent d r = .ok (match F.parse d (win r) with
      | some (k, ev, d') => (.ok (.current k, ev), d', r)
      | none => (.error (.MoreDataNeeded (F.need d (win r))), d, r)) := by
  simp only [demuxer, h.data, ok_bind, pure_eq_ok]
  cases F.parse d (win r) <;> rfl

theorem head_at {F : Format D} {d : D} {i : GlobalInfo} {r : LAcc R} (h : Tidy r) :
    (demuxer F).readHeaders d r i = .ok (match F.head d i (win r) with
      | some (k, d', i') => (.ok (.current k), d', r, i')
      | none => (.error (.MoreDataNeeded (F.headNeed d i (win r))), d, r, i)) := by
  simp only [demuxer, h.data, ok_bind, pure_eq_ok]
  cases F.head d i (win r) <;> rfl

theorem fill_tidy (hb : Bounded dev) {r q : LAcc R} {x : Except IoErr (List U8)} (h : Tidy r)
    (hf : fillBuf dev r = .ok (x, q)) : Tidy q ∧ q.buf.length = r.buf.length := by
  obtain ⟨r1, a1, a2, a3⟩ := fill_does hb h
  rw [a1] at hf
  cases hf
  have := congrArg Queue.size a3
  rw [qfill_size] at this
  exact ⟨a2, this⟩

theorem grow_tidy {r : LAcc R} (h : Tidy r) (n : Nat) : Tidy (grow r n) ∧ (grow r n).buf.length = r.buf.length + n := by
  refine ⟨⟨h.1, ?_⟩, by simp [grow]⟩
  have := h.2
  simp only [grow, List.length_append]; omega

theorem leave_size (b : Queue R) (sf : SeekFrom) : (b.leave dev sf).2.size = b.size := by
  unfold Queue.leave
  cases hd : dev.seek b.inner sf with
  | mk x s =>
    cases x with
    | error e => rfl
    | ok m =>
      simp only
      have := qfill_size (dev := dev) (⟨s, [], b.size, m⟩ : Queue R)
      generalize Queue.fill dev (⟨s, [], b.size, m⟩ : Queue R) = f at this ⊢
      obtain ⟨y, f⟩ := f
      cases y <;> exact this

theorem seek_tidy (hb : Bounded dev) {r q : LAcc R} {x : Except IoErr Nat} {sf : SeekFrom} (h : Tidy r)
    (hf : seek dev r sf = .ok (x, q)) : Tidy q ∧ q.buf.length = r.buf.length := by
  obtain ⟨r1, a1, a2, a3⟩ := seek_does hb h sf
  rw [a1] at hf
  cases hf
  refine ⟨a2, ?_⟩
  have := congrArg Queue.size a3
  refine this.trans ?_
  cases sf with
  | start n =>
    simp only [Queue.seek]
    split
    · rfl
    · exact leave_size ..
  | «end» d => exact leave_size ..
  | current d =>
    simp only [Queue.seek]
    split
    · exact leave_size ..
    · split
      · rfl
      · exact leave_size ..

/-- The buffer does not shrink. -/
theorem event_size (hb : Bounded dev) (F : Format D) (fuel : Nat) :
    ∀ {c d : Context D (LAcc R)} {x : Except Err Event}, Tidy c.reader →
    readEvent (demuxer F) (buffered dev) fuel c = .ok (x, d) →
    Tidy d.reader ∧ c.reader.buf.length ≤ d.reader.buf.length := by
  induction fuel with
  | zero => intro c d x _ h; cases h
  | succ fuel ih =>
    intro c d x ht h
    have hcall := event_at (F := F) (d := c.demuxer) ht
    cases h1 : readEventInternal (demuxer F) (buffered dev) c with
    | error e => simp only [readEvent, h1] at h; cases h
    | ok v =>
      obtain ⟨y, c1⟩ := v
      have hc1 : Tidy c1.reader ∧ c1.reader.buf.length = c.reader.buf.length := by
        simp only [readEventInternal, hcall, ok_bind] at h1
        cases hp : F.parse c.demuxer (win c.reader) with
        | none => rw [hp] at h1; cases h1; exact ⟨ht, rfl⟩
        | some v =>
          obtain ⟨k, ev, d'⟩ := v
          rw [hp] at h1
          simp only at h1
          cases hs : (buffered dev).seek c.reader (.current k) with
          | error e => rw [hs] at h1; cases h1
          | ok v =>
            obtain ⟨z, r1⟩ := v
            rw [hs] at h1
            simp only [ok_bind] at h1
            have := seek_tidy (sf := .current k) (x := z) (q := r1) hb ht hs
            cases z with
            | error e => cases h1; exact this
            | ok m => cases ev <;> cases h1 <;> exact this
      rcases internal_spec h1 with h2 | ⟨n, rfl, h2⟩
      · rw [readEvent_answers fuel h2] at h
        cases h
        exact ⟨hc1.1, by omega⟩
      · rw [readEvent_asks_eq fuel h2] at h
        have hdat : (buffered dev).data c1.reader = .ok (win c1.reader) := hc1.1.data
        simp only [hdat, ok_bind] at h
        by_cases h4 : n ≤ (win c1.reader).length
        · rw [if_pos h4] at h
          obtain ⟨i1, i2⟩ := ih hc1.1 h
          exact ⟨i1, by omega⟩
        · rw [if_neg h4] at h
          obtain ⟨g1, g2⟩ := grow_tidy hc1.1 n
          obtain ⟨q, a1, a2, a3⟩ := fill_does hb g1
          obtain ⟨f1, f2⟩ := fill_tidy hb g1 a1
          rw [show ((buffered dev).grow c1.reader n >>= (buffered dev).fillBuf) = fillBuf dev (grow c1.reader n) from rfl, a1] at h
          simp only [ok_bind] at h
          generalize ((view (grow c1.reader n)).fill dev).1 = z at h
          cases z with
          | error e => cases h; exact ⟨f1, by simp only; omega⟩
          | ok l =>
            simp only at h
            rw [show (buffered dev).data q = .ok (win q) from f1.data] at h
            simp only [ok_bind] at h
            split at h
            · cases h; exact ⟨f1, by simp only; omega⟩
            · obtain ⟨i1, i2⟩ := ih (c := { c1 with reader := q }) f1 h
              exact ⟨i1, by simp only at i2; omega⟩

/-- What the target does where the code without bounds returns `x` and leaves `d`. -/
def Follows (t : Acc.Target) (sharp : Prop) {X : Type} (f : Rust (X × Context D (LAcc R))) (x : X) (d : Context D (LAcc R)) : Prop :=
  (∃ d', f = .ok (x, d') ∧ CPeer t.bits sharp d' d) ∨
  (t.checks = true ∧ f = .error .overflow ∧ 2 ^ t.bits ≤ d.reader.index)

theorem event_peer (hb : Bounded dev) (F : Format D)
    (hF : ∀ d w k ev d' n, F.parse d w = some (k, ev, d') → ev ≠ .MoreDataNeeded n)
    (hsh : sharp → t.checks = true ∧ (cut t.bits F).Fits) (fuel : Nat) :
    ∀ {c' c d : Context D (LAcc R)} {x : Except Err Event}, CPeer t.bits sharp c' c →
    readEvent (demuxer (cut t.bits F)) (buffered dev) fuel c = .ok (x, d) → 2 * d.reader.buf.length < 2 ^ t.bits →
    Follows t sharp (readEvent (demuxer F) (bufferedN t dev) fuel c') x d := by
  induction fuel with
  | zero => intro c' c d x _ h; cases h
  | succ fuel ih =>
    intro c' c d x hp h hsz
    have hcall := event_at (F := cut t.bits F) (d := c.demuxer) hp.reader.tidy
    have hcall' := event_at (F := F) (d := c'.demuxer) hp.reader.neat.tidy
    rw [hp.demuxer, hp.reader.held] at hcall'
    have hsize := event_size hb (cut t.bits F) (fuel + 1) hp.reader.tidy h
    cases hpar : F.parse c.demuxer (win c.reader) with
    | some v =>
      obtain ⟨k0, ev, d1⟩ := v
      obtain ⟨k, hk⟩ : ∃ k, cutBy t.bits (win c.reader).length k0 = k := ⟨_, rfl⟩
      have hparc : (cut t.bits F).parse c.demuxer (win c.reader) = some (k, ev, d1) := by
        simp only [cut, hpar, Option.map_some, hk]
      rw [hparc] at hcall
      rw [hpar] at hcall'
      have hcall'' : (demuxer F).readEvent c'.demuxer c'.reader = .ok (.ok (.current k0, ev), d1, c'.reader) := by
        rw [hp.demuxer]; exact hcall'
      have hd := deliver c.info.streams ev (fun n => hF _ _ _ _ _ n hpar)
      have hd' : Delivered c'.info.streams ev (completed c.info.streams ev) := by rw [hp.info]; exact hd
      obtain ⟨y, q, s1, s2, s3, s4⟩ := seek_peer (t := t) (sharp := sharp) hb hp.reader k0 k hk
        (fun hs => ⟨(hsh hs).1, (hsh hs).2.parse _ _ _ _ _ hparc⟩)
      have s1' : (buffered dev).seek c.reader (.current k) = .ok (y, q) := s1
      rcases s4 with ⟨y', q', t1, t2, t3⟩ | ⟨o1, o2, o3⟩
      · have t1' : (bufferedN t dev).seek c'.reader (.current k0) = .ok (y', q') := t1
        refine .inl ?_
        cases y with
        | error e =>
          have hy := (t3 e).1 rfl
          subst hy
          rw [readEvent_answers fuel (.seekError hcall s1')] at h
          cases h
          exact ⟨_, readEvent_answers fuel (.seekError hcall'' t1'), ⟨rfl, hp.info, hp.user, t2⟩⟩
        | ok m =>
          cases y' with
          | error e => exact absurd ((t3 e).2 rfl) (by simp)
          | ok m' =>
            rw [readEvent_answers fuel (.event hcall s1' hd)] at h
            cases h
            exact ⟨_, readEvent_answers fuel (.event hcall'' t1' hd'), ⟨rfl, by rw [hp.info], hp.user, t2⟩⟩
      · refine .inr ⟨o1, ?_, ?_⟩
        · have o2' : (bufferedN t dev).seek c'.reader (.current k0) = .error .overflow := o2
          simp [readEvent, readEventInternal, hcall'', o2']
        · cases y with
          | error e =>
            rw [readEvent_answers fuel (.seekError hcall s1')] at h
            cases h
            exact o3
          | ok m =>
            rw [readEvent_answers fuel (.event hcall s1' hd)] at h
            cases h
            exact o3
    | none =>
      have hparc : (cut t.bits F).parse c.demuxer (win c.reader) = none := by simp only [cut, hpar, Option.map_none]
      rw [hparc] at hcall
      rw [hpar] at hcall'
      have hcall'' : (demuxer F).readEvent c'.demuxer c'.reader =
          .ok (.error (.MoreDataNeeded (F.need c.demuxer (win c.reader))), c'.demuxer, c'.reader) := by
        rw [hp.demuxer]; exact hcall'
      have ha : Asks (demuxer (cut t.bits F)) (buffered dev) c (F.need c.demuxer (win c.reader)) _ := .error hcall
      have ha' : Asks (demuxer F) (bufferedN t dev) c' _ _ := .error hcall''
      rw [readEvent_asks_eq fuel ha] at h
      rw [readEvent_asks_eq fuel ha']
      generalize F.need c.demuxer (win c.reader) = n at *
      have e1 : (buffered dev).data c.reader = .ok (win c.reader) := hp.reader.tidy.data
      have e2 : (bufferedN t dev).data c'.reader = .ok (win c.reader) := by
        rw [← hp.reader.held]; exact hp.reader.neat.tidy.data
      simp only [e1, ok_bind] at h
      simp only [e2, ok_bind]
      by_cases h4 : n ≤ (win c.reader).length
      · rw [if_pos h4] at h ⊢
        exact ih hp h hsz
      · rw [if_neg h4] at h ⊢
        obtain ⟨g1, g2⟩ := grow_tidy hp.reader.tidy n
        have hbig : 2 * (c.reader.buf.length + n) < 2 ^ t.bits := by
          obtain ⟨q, a1, a2, a3⟩ := fill_does hb g1
          obtain ⟨f1, f2⟩ := fill_tidy hb g1 a1
          rw [show ((buffered dev).grow c.reader n >>= (buffered dev).fillBuf) = fillBuf dev (grow c.reader n) from rfl, a1] at h
          simp only [ok_bind] at h
          generalize ((view (grow c.reader n)).fill dev).1 = z at h
          have : q.buf.length ≤ d.reader.buf.length := by
            cases z with
            | error e => cases h; exact Nat.le_refl _
            | ok l =>
              simp only at h
              rw [show (buffered dev).data q = .ok (win q) from f1.data] at h
              simp only [ok_bind] at h
              split at h
              · cases h; exact Nat.le_refl _
              · exact (event_size hb (cut t.bits F) fuel (c := { c with reader := q }) f1 h).2
          omega
        obtain ⟨r1, b1, b2⟩ := grow_peer hp.reader n hbig
        obtain ⟨z, q', q, k1, k2, k3, k4, k5⟩ := fill_peer hb b2
        rw [show ((buffered dev).grow c.reader n >>= (buffered dev).fillBuf) = fillBuf dev (grow c.reader n) from rfl, k2] at h
        rw [show ((bufferedN t dev).grow c'.reader n >>= (bufferedN t dev).fillBuf) = (growN t c'.reader n >>= fillBufN t dev) from rfl,
          b1, ok_bind, k1]
        simp only [ok_bind] at h ⊢
        cases z with
        | error e => cases h; exact .inl ⟨_, rfl, ⟨hp.demuxer, hp.info, hp.user, k3⟩⟩
        | ok l =>
          simp only at h ⊢
          rw [show (buffered dev).data q = .ok (win q) from k3.tidy.data] at h
          rw [show (bufferedN t dev).data q' = .ok (win q) by rw [← k3.held]; exact k3.neat.tidy.data]
          simp only [ok_bind] at h ⊢
          by_cases h5 : (win q).length ≤ (win c.reader).length
          · rw [if_pos h5] at h ⊢
            cases h; exact .inl ⟨_, rfl, ⟨hp.demuxer, hp.info, hp.user, k3⟩⟩
          · rw [if_neg h5] at h ⊢
            exact ih (c := { c with reader := q }) (c' := { c' with reader := q' }) ⟨hp.demuxer, hp.info, hp.user, k3⟩ h hsz

theorem seek_inside (hb : Bounded dev) {r q : LAcc R} {x : Except IoErr Nat} {k : Nat} (h : Tidy r) (hk : k ≤ (win r).length)
    (hf : seek dev r (.current k) = .ok (x, q)) : q.index = r.index + k := by
  obtain ⟨r1, a1, a2, a3⟩ := seek_does hb h (.current k)
  rw [a1] at hf
  cases hf
  have := congrArg Queue.pos a3
  simp only [Queue.seek] at this
  rw [if_neg (by omega), Int.toNat_natCast, if_pos (show k ≤ (view r).q.length from hk)] at this
  simp only [Queue.take] at this
  rw [Nat.min_eq_left (show k ≤ (view r).q.length from hk)] at this
  exact this

/-- The position does not go back. -/
theorem event_index (hb : Bounded dev) (F : Format D) (hf : F.Fits) (fuel : Nat) :
    ∀ {c d : Context D (LAcc R)} {x : Except Err Event}, Tidy c.reader →
    readEvent (demuxer F) (buffered dev) fuel c = .ok (x, d) → c.reader.index ≤ d.reader.index := by
  induction fuel with
  | zero => intro c d x _ h; cases h
  | succ fuel ih =>
    intro c d x ht h
    have hcall := event_at (F := F) (d := c.demuxer) ht
    cases h1 : readEventInternal (demuxer F) (buffered dev) c with
    | error e => simp only [readEvent, h1] at h; cases h
    | ok v =>
      obtain ⟨y, c1⟩ := v
      have hc1 : Tidy c1.reader ∧ c.reader.index ≤ c1.reader.index := by
        simp only [readEventInternal, hcall, ok_bind] at h1
        cases hp : F.parse c.demuxer (win c.reader) with
        | none => rw [hp] at h1; cases h1; exact ⟨ht, Nat.le_refl _⟩
        | some v =>
          obtain ⟨k, ev, d'⟩ := v
          rw [hp] at h1
          simp only at h1
          cases hs : (buffered dev).seek c.reader (.current k) with
          | error e => rw [hs] at h1; cases h1
          | ok v =>
            obtain ⟨z, r1⟩ := v
            rw [hs] at h1
            simp only [ok_bind] at h1
            have g1 := seek_tidy (sf := .current k) (x := z) (q := r1) hb ht hs
            have g2 := seek_inside (x := z) (q := r1) hb ht (hf.parse _ _ _ _ _ hp) hs
            have : Tidy r1 ∧ c.reader.index ≤ r1.index := ⟨g1.1, by omega⟩
            cases z with
            | error e => cases h1; exact this
            | ok m => cases ev <;> cases h1 <;> exact this
      rcases internal_spec h1 with h2 | ⟨n, rfl, h2⟩
      · rw [readEvent_answers fuel h2] at h
        cases h
        exact hc1.2
      · rw [readEvent_asks_eq fuel h2] at h
        have hdat : (buffered dev).data c1.reader = .ok (win c1.reader) := hc1.1.data
        simp only [hdat, ok_bind] at h
        by_cases h4 : n ≤ (win c1.reader).length
        · rw [if_pos h4] at h
          have := ih hc1.1 h
          omega
        · rw [if_neg h4] at h
          obtain ⟨g1, g2⟩ := grow_tidy hc1.1 n
          obtain ⟨q, a1, a2, a3⟩ := fill_does hb g1
          have hq : q.index = c1.reader.index := by
            have := congrArg Queue.pos a3
            rw [fill_pos] at this
            exact this
          rw [show ((buffered dev).grow c1.reader n >>= (buffered dev).fillBuf) = fillBuf dev (grow c1.reader n) from rfl, a1] at h
          simp only [ok_bind] at h
          generalize ((view (grow c1.reader n)).fill dev).1 = z at h
          cases z with
          | error e => cases h; simp only; omega
          | ok l =>
            simp only at h
            rw [show (buffered dev).data q = .ok (win q) from a2.data] at h
            simp only [ok_bind] at h
            split at h
            · cases h; simp only; omega
            · have := ih (c := { c1 with reader := q }) a2 h
              simp only at this; omega

theorem events_size (hb : Bounded dev) (F : Format D) (fuel : Nat) (n : Nat) :
    ∀ {c d : Context D (LAcc R)} {xs : List (Except Err Event)}, Tidy c.reader →
    readEvents (demuxer F) (buffered dev) fuel n c = .ok (xs, d) →
    Tidy d.reader ∧ c.reader.buf.length ≤ d.reader.buf.length ∧ (F.Fits → c.reader.index ≤ d.reader.index) := by
  induction n with
  | zero => intro c d xs ht h; cases h; exact ⟨ht, Nat.le_refl _, fun _ => Nat.le_refl _⟩
  | succ n ih =>
    intro c d xs ht h
    simp only [readEvents] at h
    cases h1 : readEvent (demuxer F) (buffered dev) fuel c with
    | error e => rw [h1] at h; cases h
    | ok v =>
      obtain ⟨x, c1⟩ := v
      rw [h1, ok_bind] at h
      simp only at h
      cases h2 : readEvents (demuxer F) (buffered dev) fuel n c1 with
      | error e => rw [h2] at h; cases h
      | ok v =>
        obtain ⟨ys, c2⟩ := v
        rw [h2] at h
        cases h
        obtain ⟨i1, i2⟩ := event_size hb F fuel ht h1
        obtain ⟨j1, j2, j3⟩ := ih i1 h2
        refine ⟨j1, Nat.le_trans i2 j2, fun hf => Nat.le_trans (event_index hb F hf fuel ht h1) (j3 hf)⟩

theorem events_peer (hb : Bounded dev) (F : Format D)
    (hF : ∀ d w k ev d' n, F.parse d w = some (k, ev, d') → ev ≠ .MoreDataNeeded n)
    (hsh : sharp → t.checks = true ∧ (cut t.bits F).Fits) (fuel n : Nat) :
    ∀ {c' c d : Context D (LAcc R)} {xs : List (Except Err Event)}, CPeer t.bits sharp c' c →
    readEvents (demuxer (cut t.bits F)) (buffered dev) fuel n c = .ok (xs, d) → 2 * d.reader.buf.length < 2 ^ t.bits →
    (∃ d', readEvents (demuxer F) (bufferedN t dev) fuel n c' = .ok (xs, d') ∧ CPeer t.bits sharp d' d) ∨
    (t.checks = true ∧ readEvents (demuxer F) (bufferedN t dev) fuel n c' = .error .overflow ∧
      ∃ m ys e, m ≤ n ∧ readEvents (demuxer (cut t.bits F)) (buffered dev) fuel m c = .ok (ys, e) ∧ 2 ^ t.bits ≤ e.reader.index ∧
        ((cut t.bits F).Fits → e.reader.index ≤ d.reader.index)) := by
  induction n with
  | zero => intro c' c d xs hp h _; cases h; exact .inl ⟨_, rfl, hp⟩
  | succ n ih =>
    intro c' c d xs hp h hsz
    simp only [readEvents] at h ⊢
    cases h1 : readEvent (demuxer (cut t.bits F)) (buffered dev) fuel c with
    | error e => rw [h1] at h; cases h
    | ok v =>
      obtain ⟨x, c1⟩ := v
      rw [h1, ok_bind] at h
      simp only at h
      cases h2 : readEvents (demuxer (cut t.bits F)) (buffered dev) fuel n c1 with
      | error e => rw [h2] at h; cases h
      | ok v =>
        obtain ⟨ys, c2⟩ := v
        rw [h2] at h
        cases h
        obtain ⟨i1, i2⟩ := event_size hb (cut t.bits F) fuel hp.reader.tidy h1
        obtain ⟨j1, j2, j3⟩ := events_size hb (cut t.bits F) fuel n i1 h2
        rcases event_peer hb F hF hsh fuel hp h1 (by simp only at hsz; omega) with ⟨c1', k1, k2⟩ | ⟨k1, k2, k3⟩
        · rw [k1]
          simp only [ok_bind]
          rcases ih k2 h2 hsz with ⟨c2', l1, l2⟩ | ⟨l1, l2, m, zs, e, l3, l4, l5, l6⟩
          · rw [l1]
            exact .inl ⟨_, rfl, l2⟩
          · rw [l2]
            refine .inr ⟨l1, rfl, m + 1, x :: zs, e, by omega, ?_, l5, l6⟩
            simp only [readEvents, h1, ok_bind, l4]; rfl
        · rw [k2]
          refine .inr ⟨k1, rfl, 1, [x], c1, by omega, ?_, k3, j3⟩
          simp only [readEvents, h1, ok_bind]; rfl

theorem headers_size (hb : Bounded dev) (F : Format D) (fuel : Nat) :
    ∀ {c d : Context D (LAcc R)} {x : Except Err Unit}, Tidy c.reader →
    readHeaders (demuxer F) (buffered dev) fuel c = .ok (x, d) →
    Tidy d.reader ∧ c.reader.buf.length ≤ d.reader.buf.length := by
  induction fuel with
  | zero => intro c d x _ h; cases h
  | succ fuel ih =>
    intro c d x ht h
    simp only [readHeaders] at h
    obtain ⟨q, a1, a2, a3⟩ := fill_does hb ht
    obtain ⟨f1, f2⟩ := fill_tidy hb ht a1
    rw [show (buffered dev).fillBuf c.reader = fillBuf dev c.reader from rfl, a1] at h
    simp only [ok_bind] at h
    generalize ((view c.reader).fill dev).1 = z at h
    cases z with
    | error e => cases h; exact ⟨f1, by simp only; omega⟩
    | ok l =>
      simp only [readHeadersInternal, head_at f1, ok_bind] at h
      cases hp : F.head c.demuxer c.info (win q) with
      | none =>
        rw [hp] at h
        simp only [ok_bind] at h
        rw [show (buffered dev).grow q (F.headNeed c.demuxer c.info (win q)) = .ok (grow q (F.headNeed c.demuxer c.info (win q))) from rfl] at h
        simp only [ok_bind] at h
        obtain ⟨g1, g2⟩ := grow_tidy f1 (F.headNeed c.demuxer c.info (win q))
        obtain ⟨i1, i2⟩ := ih (c := { c with reader := grow q (F.headNeed c.demuxer c.info (win q)) }) g1 h
        exact ⟨i1, by simp only at i2; omega⟩
      | some v =>
        obtain ⟨k, d', i'⟩ := v
        rw [hp] at h
        simp only at h
        cases hs : (buffered dev).seek q (.current k) with
        | error e => rw [hs] at h; cases h
        | ok v =>
          obtain ⟨z, r1⟩ := v
          rw [hs] at h
          cases h
          have g1 := seek_tidy (sf := .current k) (x := z) (q := r1) hb f1 hs
          exact ⟨g1.1, by simp only; omega⟩

theorem headers_peer (hb : Bounded dev) (F : Format D)
    (hsh : sharp → t.checks = true ∧ (cut t.bits F).Fits) (fuel : Nat) :
    ∀ {c' c d : Context D (LAcc R)} {x : Except Err Unit}, CPeer t.bits sharp c' c →
    readHeaders (demuxer (cut t.bits F)) (buffered dev) fuel c = .ok (x, d) → 2 * d.reader.buf.length < 2 ^ t.bits →
    Follows t sharp (readHeaders (demuxer F) (bufferedN t dev) fuel c') x d := by
  induction fuel with
  | zero => intro c' c d x _ h; cases h
  | succ fuel ih =>
    intro c' c d x hp h hsz
    simp only [readHeaders] at h ⊢
    obtain ⟨z, q', q, k1, k2, k3, k4, k5⟩ := fill_peer hb hp.reader
    rw [show (buffered dev).fillBuf c.reader = fillBuf dev c.reader from rfl, k2] at h
    rw [show (bufferedN t dev).fillBuf c'.reader = fillBufN t dev c'.reader from rfl, k1]
    simp only [ok_bind] at h ⊢
    cases z with
    | error e => cases h; exact .inl ⟨_, rfl, ⟨hp.demuxer, hp.info, hp.user, k3⟩⟩
    | ok l =>
      simp only [readHeadersInternal, head_at k3.tidy, ok_bind] at h
      simp only [readHeadersInternal, head_at k3.neat.tidy, ok_bind, hp.demuxer, hp.info, k3.held]
      cases hpar : F.head c.demuxer c.info (win q) with
      | none =>
        have hparc : (cut t.bits F).head c.demuxer c.info (win q) = none := by simp only [cut, hpar, Option.map_none]
        rw [hparc, show (cut t.bits F).headNeed = F.headNeed from rfl] at h
        simp only [ok_bind] at h ⊢
        generalize F.headNeed c.demuxer c.info (win q) = n at h ⊢
        rw [show (buffered dev).grow q n = .ok (grow q n) from rfl] at h
        simp only [ok_bind] at h
        obtain ⟨g1, g2⟩ := grow_tidy k3.tidy n
        have hs := (headers_size hb (cut t.bits F) fuel (c := { c with reader := grow q n }) g1 h).2
        simp only at hs
        obtain ⟨r1, b1, b2⟩ := grow_peer k3 n (by omega)
        rw [show (bufferedN t dev).grow q' n = growN t q' n from rfl, b1]
        simp only [ok_bind]
        exact ih (c := { c with reader := grow q n }) (c' := { demuxer := c.demuxer, reader := r1, info := c.info, user_private := c'.user_private })
          ⟨rfl, rfl, hp.user, b2⟩ h hsz
      | some v =>
        obtain ⟨k0, d1, i1⟩ := v
        obtain ⟨k, hk⟩ : ∃ k, cutBy t.bits (win q).length k0 = k := ⟨_, rfl⟩
        have hparc : (cut t.bits F).head c.demuxer c.info (win q) = some (k, d1, i1) := by
          simp only [cut, hpar, Option.map_some, hk]
        rw [hparc] at h
        simp only at h ⊢
        obtain ⟨y, r1, s1, s2, s3, s4⟩ := seek_peer (t := t) (sharp := sharp) hb k3 k0 k hk
          (fun hs => ⟨(hsh hs).1, (hsh hs).2.head _ _ _ _ _ _ hparc⟩)
        rw [show (buffered dev).seek q (.current k) = seek dev q (.current k) from rfl, s1] at h
        rw [show (bufferedN t dev).seek q' (.current k0) = seekN t dev q' (.current k0) from rfl]
        cases h
        rcases s4 with ⟨y', r1', t1, t2, t3⟩ | ⟨o1, o2, o3⟩
        · rw [t1]
          exact .inl ⟨_, rfl, ⟨rfl, rfl, hp.user, t2⟩⟩
        · rw [o2]
          exact .inr ⟨o1, rfl, o3⟩

theorem new_peer (cap : Nat) (s : R) (h : 2 * cap < 2 ^ t.bits) (d : D) :
    CPeer t.bits sharp (Context.new d (withCapacity cap s)) (Context.new d (withCapacity cap s)) := by
  obtain ⟨h1, _⟩ := withCapacity_neat (t := t) cap s h
  exact ⟨rfl, rfl, rfl, ⟨h1, h1.tidy, rfl, rfl, rfl, (Nat.mod_eq_of_lt h1.low).symm, fun _ => rfl⟩⟩

/-- The theorem. -/
theorem large_streams (hb : Bounded dev) (F : Format D)
    (hF : ∀ d w k ev d' n, F.parse d w = some (k, ev, d') → ev ≠ .MoreDataNeeded n)
    (hsh : sharp → t.checks = true ∧ (cut t.bits F).Fits)
    (s : R) (cap fuel n : Nat) (d : D) (h : Except Err Unit) (xs : List (Except Err Event)) (c1 c2 : Context D (LAcc R))
    (h1 : readHeaders (demuxer (cut t.bits F)) (buffered dev) fuel (Context.new d (withCapacity cap s)) = .ok (h, c1))
    (h2 : readEvents (demuxer (cut t.bits F)) (buffered dev) fuel n c1 = .ok (xs, c2)) (hz : 2 * c2.reader.buf.length < 2 ^ t.bits) :
    (∃ c1' c2', readHeaders (demuxer F) (bufferedN t dev) fuel (Context.new d (withCapacity cap s)) = .ok (h, c1') ∧
      readEvents (demuxer F) (bufferedN t dev) fuel n c1' = .ok (xs, c2') ∧ CPeer t.bits sharp c2' c2) ∨
    (t.checks = true ∧ ((cut t.bits F).Fits → 2 ^ t.bits ≤ c2.reader.index) ∧
      (readHeaders (demuxer F) (bufferedN t dev) fuel (Context.new d (withCapacity cap s)) = .error .overflow ∨
        ∃ c1', readHeaders (demuxer F) (bufferedN t dev) fuel (Context.new d (withCapacity cap s)) = .ok (h, c1') ∧
          readEvents (demuxer F) (bufferedN t dev) fuel n c1' = .error .overflow)) := by
  have ht0 : Tidy (Context.new d (withCapacity cap s)).reader := (withCapacity_tidy cap s).1
  obtain ⟨i1, i2⟩ := headers_size hb (cut t.bits F) fuel ht0 h1
  obtain ⟨j1, j2, j3⟩ := events_size hb (cut t.bits F) fuel n i1 h2
  have hcap : (Context.new d (withCapacity cap s)).reader.buf.length = cap := by simp [Context.new, withCapacity]
  have hp := new_peer (t := t) (sharp := sharp) cap s (by omega) d
  rcases headers_peer hb F hsh fuel hp h1 (by omega) with ⟨c1', k1, k2⟩ | ⟨k1, k2, k3⟩
  · rcases events_peer hb F hF hsh fuel n k2 h2 hz with ⟨c2', l1, l2⟩ | ⟨l1, l2, m, ys, e, l3, l4, l5, l6⟩
    · exact .inl ⟨c1', c2', k1, l1, l2⟩
    · exact .inr ⟨l1, fun hf => Nat.le_trans l5 (l6 hf), .inr ⟨c1', k1, l2⟩⟩
  · exact .inr ⟨k1, fun hf => Nat.le_trans k3 (j3 hf), .inl k2⟩

/-! ### C142 -/

/-- What C142 claims of a target: headers and events are what they are where positions have no bounds, as long as the buffer
stays within half the address space. -/
def C142 (t : Acc.Target) : Prop :=
  ∀ (D R : Type) (F : Format D), F.Framed → ∀ (dev : Dev R), Bounded dev → ∀ (s : R) (cap fuel n : Nat) (d : D)
    (h : Except Err Unit) (xs : List (Except Err Event)) (c1 c2 : Context D (LAcc R)),
    readHeaders (demuxer F) (buffered dev) fuel (Context.new d (withCapacity cap s)) = .ok (h, c1) →
    readEvents (demuxer F) (buffered dev) fuel n c1 = .ok (xs, c2) → 2 * c2.reader.buf.length < 2 ^ t.bits →
    ∃ c1' c2', readHeaders (demuxer F) (bufferedN t dev) fuel (Context.new d (withCapacity cap s)) = .ok (h, c1') ∧
      readEvents (demuxer F) (bufferedN t dev) fuel n c1' = .ok (xs, c2')

/-- **C142 without overflow checks.** Streams of any length are demuxed on every target as they are where positions have no
bounds, if no single header or record is to be skipped that is as long as the address space. Only the position reported is
taken modulo its size. Missing for C142: longer skips (`c142_fails`). -/
theorem c142_unchecked_partial (hc : t.checks = false) (hb : Bounded dev) (F : Format D) (hF : F.Framed)
    (hk : (∀ d i w k d' i', F.head d i w = some (k, d', i') → k < 2 ^ t.bits) ∧
      ∀ d w k ev d', F.parse d w = some (k, ev, d') → k < 2 ^ t.bits)
    (s : R) (cap fuel n : Nat) (d : D) (h : Except Err Unit) (xs : List (Except Err Event)) (c1 c2 : Context D (LAcc R))
    (h1 : readHeaders (demuxer F) (buffered dev) fuel (Context.new d (withCapacity cap s)) = .ok (h, c1))
    (h2 : readEvents (demuxer F) (buffered dev) fuel n c1 = .ok (xs, c2)) (hz : 2 * c2.reader.buf.length < 2 ^ t.bits) :
    ∃ c1' c2', readHeaders (demuxer F) (bufferedN t dev) fuel (Context.new d (withCapacity cap s)) = .ok (h, c1') ∧
      readEvents (demuxer F) (bufferedN t dev) fuel n c1' = .ok (xs, c2') ∧ c2'.demuxer = c2.demuxer ∧ c2'.info = c2.info ∧
      c2'.reader.inner = c2.reader.inner ∧ data c2'.reader = data c2.reader ∧
      c2'.reader.index = c2.reader.index % 2 ^ t.bits := by
  rw [← cut_eq hk] at h1 h2
  rcases large_streams (t := t) (sharp := False) hb F hF.answers (fun h => h.elim) s cap fuel n d h xs c1 c2 h1 h2 hz with
    ⟨c1', c2', a1, a2, a3⟩ | ⟨a1, _⟩
  · refine ⟨c1', c2', a1, a2, a3.demuxer, a3.info, a3.reader.inner, ?_, a3.reader.idx⟩
    rw [a3.reader.neat.tidy.data, a3.reader.tidy.data, a3.reader.held]
  · rw [hc] at a1; cases a1

/-- **C142 with overflow checks.** If records are not longer than the bytes they are recognised in, a stream is demuxed
as where positions have no bounds, up to the end of the address space: a call that goes beyond it panics. Missing for C142:
what lies beyond (`c142_fails`). -/
theorem c142_checked_partial (hc : t.checks = true) (hb : Bounded dev) (F : Format D) (hF : F.Framed) (hf : F.Fits)
    (hk : (∀ d i w k d' i', F.head d i w = some (k, d', i') → k < 2 ^ t.bits) ∧
      ∀ d w k ev d', F.parse d w = some (k, ev, d') → k < 2 ^ t.bits)
    (s : R) (cap fuel n : Nat) (d : D) (h : Except Err Unit) (xs : List (Except Err Event)) (c1 c2 : Context D (LAcc R))
    (h1 : readHeaders (demuxer F) (buffered dev) fuel (Context.new d (withCapacity cap s)) = .ok (h, c1))
    (h2 : readEvents (demuxer F) (buffered dev) fuel n c1 = .ok (xs, c2)) (hz : 2 * c2.reader.buf.length < 2 ^ t.bits) :
    (c2.reader.index < 2 ^ t.bits →
      ∃ c1' c2', readHeaders (demuxer F) (bufferedN t dev) fuel (Context.new d (withCapacity cap s)) = .ok (h, c1') ∧
        readEvents (demuxer F) (bufferedN t dev) fuel n c1' = .ok (xs, c2') ∧ c2'.demuxer = c2.demuxer ∧
        c2'.info = c2.info ∧ c2'.reader.inner = c2.reader.inner ∧ data c2'.reader = data c2.reader ∧
        c2'.reader.index = c2.reader.index) ∧
    (2 ^ t.bits ≤ c2.reader.index →
      readHeaders (demuxer F) (bufferedN t dev) fuel (Context.new d (withCapacity cap s)) = .error .overflow ∨
        ∃ c1', readHeaders (demuxer F) (bufferedN t dev) fuel (Context.new d (withCapacity cap s)) = .ok (h, c1') ∧
          readEvents (demuxer F) (bufferedN t dev) fuel n c1' = .error .overflow) := by
  have hcut := cut_eq hk
  rw [← hcut] at h1 h2
  rcases large_streams (t := t) (sharp := True) hb F hF.answers (fun _ => ⟨hc, by rw [hcut]; exact hf⟩) s cap fuel n d h xs c1 c2 h1 h2 hz with
    ⟨c1', c2', a1, a2, a3⟩ | ⟨_, a1, a2⟩
  · have hi := a3.reader.exact trivial
    have hl := a3.reader.neat.low
    refine ⟨fun _ => ⟨c1', c2', a1, a2, a3.demuxer, a3.info, a3.reader.inner, ?_, hi⟩, fun hbig => by omega⟩
    rw [a3.reader.neat.tidy.data, a3.reader.tidy.data, a3.reader.held]
  · exact ⟨fun hsm => by have := a1 (by rw [hcut]; exact hf); omega, fun _ => a2⟩

/-- **C142 for records of any length, without overflow checks.** On every target a stream is demuxed as where positions have
no bounds, but as if it were in the format `cut`: a header or record as long as the address space or longer is skipped by its
length modulo the size of the address space if as much is buffered, and else by its whole length. Missing for C142: that it is
always skipped by its whole length, which is false (`c142_fails`). -/
theorem c142_cut_partial (hc : t.checks = false) (hb : Bounded dev) (F : Format D)
    (hF : ∀ d w k ev d' n, F.parse d w = some (k, ev, d') → ev ≠ .MoreDataNeeded n)
    (s : R) (cap fuel n : Nat) (d : D) (h : Except Err Unit) (xs : List (Except Err Event)) (c1 c2 : Context D (LAcc R))
    (h1 : readHeaders (demuxer (cut t.bits F)) (buffered dev) fuel (Context.new d (withCapacity cap s)) = .ok (h, c1))
    (h2 : readEvents (demuxer (cut t.bits F)) (buffered dev) fuel n c1 = .ok (xs, c2))
    (hz : 2 * c2.reader.buf.length < 2 ^ t.bits) :
    ∃ c1' c2', readHeaders (demuxer F) (bufferedN t dev) fuel (Context.new d (withCapacity cap s)) = .ok (h, c1') ∧
      readEvents (demuxer F) (bufferedN t dev) fuel n c1' = .ok (xs, c2') ∧ c2'.demuxer = c2.demuxer ∧ c2'.info = c2.info ∧
      c2'.reader.inner = c2.reader.inner ∧ data c2'.reader = data c2.reader ∧
      c2'.reader.index = c2.reader.index % 2 ^ t.bits := by
  rcases large_streams (t := t) (sharp := False) hb F hF (fun h => h.elim) s cap fuel n d h xs c1 c2 h1 h2 hz with
    ⟨c1', c2', a1, a2, a3⟩ | ⟨a1, _⟩
  · refine ⟨c1', c2', a1, a2, a3.demuxer, a3.info, a3.reader.inner, ?_, a3.reader.idx⟩
    rw [a3.reader.neat.tidy.data, a3.reader.tidy.data, a3.reader.held]
  · rw [hc] at a1; cases a1

/-- **C142 for records of any length, with overflow checks:** the same, or a panic because the position overflows. -/
theorem c142_cut_checked_partial (hb : Bounded dev) (F : Format D)
    (hF : ∀ d w k ev d' n, F.parse d w = some (k, ev, d') → ev ≠ .MoreDataNeeded n)
    (s : R) (cap fuel n : Nat) (d : D) (h : Except Err Unit) (xs : List (Except Err Event)) (c1 c2 : Context D (LAcc R))
    (h1 : readHeaders (demuxer (cut t.bits F)) (buffered dev) fuel (Context.new d (withCapacity cap s)) = .ok (h, c1))
    (h2 : readEvents (demuxer (cut t.bits F)) (buffered dev) fuel n c1 = .ok (xs, c2))
    (hz : 2 * c2.reader.buf.length < 2 ^ t.bits) :
    (∃ c1' c2', readHeaders (demuxer F) (bufferedN t dev) fuel (Context.new d (withCapacity cap s)) = .ok (h, c1') ∧
      readEvents (demuxer F) (bufferedN t dev) fuel n c1' = .ok (xs, c2') ∧
      c2'.reader.index = c2.reader.index % 2 ^ t.bits) ∨
    readHeaders (demuxer F) (bufferedN t dev) fuel (Context.new d (withCapacity cap s)) = .error .overflow ∨
    ∃ c1', readHeaders (demuxer F) (bufferedN t dev) fuel (Context.new d (withCapacity cap s)) = .ok (h, c1') ∧
      readEvents (demuxer F) (bufferedN t dev) fuel n c1' = .error .overflow := by
  rcases large_streams (t := t) (sharp := False) hb F hF (fun h => h.elim) s cap fuel n d h xs c1 c2 h1 h2 hz with
    ⟨c1', c2', a1, a2, a3⟩ | ⟨_, _, a2⟩
  · exact .inl ⟨c1', c2', a1, a2, a3.reader.idx⟩
  · exact .inr a2

/-! #### examples -/

/-- In front of ten buffered bytes. -/
example : cutBy 32 10 (2 ^ 32 + 5) = 5 ∧ cutBy 32 10 (2 ^ 32 + 11) = 2 ^ 32 + 11 ∧ cutBy 32 10 7 = 7 ∧
    cutBy 32 10 (2 ^ 31) = 2 ^ 31 := by decide +kernel

/-- A stream without end: the bytes of the first 4 GiB are 0, those of the next 1, and so on. -/
def gigabytes : Dev Nat where
  read p n := (.ok ((List.range n).map fun i => BitVec.ofNat 8 ((p + i) / 2 ^ 32)), p + n)
  seek p sf := match sf with
    | .start n => (.ok n, n)
    | .current d => (.ok (p + d.toNat), p + d.toNat)
    | .end _ => (.error .invalidInput, p)

theorem gigabytes_bounded : Bounded gigabytes := by
  intro s n l h
  simp only [gigabytes, Except.ok.injEq] at h
  subst h
  simp

/-- No header; records of these lengths, the first byte of each in a packet. -/
def boxes : Format (List Nat) where
  head d i _ := some (0, d, i)
  headNeed _ _ _ := 1
  parse d w := match w with
    | [] => none
    | a :: _ => some (d.headD 1, .NewPacket { Packet.new with data := [a] }, d.tail)
  need _ _ := 1

theorem boxes_framed : boxes.Framed where
  headStable _ _ _ _ _ h := h
  headNeed _ _ _ _ := by simp [boxes]
  stable d w u x h := by
    cases w with
    | nil => cases h
    | cons a l => exact h
  need d w h := by
    cases w with
    | nil => simp [boxes]
    | cons a l => cases h
  answers d w k ev d' n h := by
    cases w with
    | nil => cases h
    | cons a l => cases h; simp

/-- The first bytes of the packets. -/
def firstBytes (xs : List (Except Err Event)) : List (List U8) :=
  xs.map fun x => match x with
    | .ok (.NewPacket p) => p.data
    | _ => []

/-- Headers, then `n` events. -/
def firsts {D : Type} (F : Format D) (bf : Buffered (LAcc Nat)) (fuel n : Nat) (c : Context D (LAcc Nat)) : Rust (List (List U8)) := do
  let (_, c) ← readHeaders (demuxer F) bf fuel c
  let (xs, _) ← readEvents (demuxer F) bf fuel n c
  return firstBytes xs

/-- **C142 is false** on 32-bit targets, and for the same reasons on all others. With overflow checks the record behind one
that ends one byte before 4 GiB makes `read_event` panic. Without, a record of 4 GiB is not skipped at all. -/
theorem c142_fails : ¬ C142 ⟨32, true⟩ ∧ ¬ C142 ⟨32, false⟩ := by
  constructor
  · intro h
    obtain ⟨c1', c2', a1, a2⟩ := h (List Nat) Nat boxes boxes_framed gigabytes gigabytes_bounded 0 4 3 2 [2 ^ 32 - 1]
      _ _ _ _ rfl rfl (by decide +kernel)
    have : firsts boxes (bufferedN ⟨32, true⟩ gigabytes) 3 2 (Context.new [2 ^ 32 - 1] (withCapacity 4 0)) =
        firsts boxes (buffered gigabytes) 3 2 (Context.new [2 ^ 32 - 1] (withCapacity 4 0)) := by
      simp only [firsts, a1, a2, ok_bind]; rfl
    exact absurd this (by decide +kernel)
  · intro h
    obtain ⟨c1', c2', a1, a2⟩ := h (List Nat) Nat boxes boxes_framed gigabytes gigabytes_bounded 0 4 3 2 [2 ^ 32]
      _ _ _ _ rfl rfl (by decide +kernel)
    have : firsts boxes (bufferedN ⟨32, false⟩ gigabytes) 3 2 (Context.new [2 ^ 32] (withCapacity 4 0)) =
        firsts boxes (buffered gigabytes) 3 2 (Context.new [2 ^ 32] (withCapacity 4 0)) := by
      simp only [firsts, a1, a2, ok_bind]; rfl
    exact absurd this (by decide +kernel)

/-- Records of one byte each. -/
def singles : Format Unit where
  head d i _ := some (0, d, i)
  headNeed _ _ _ := 1
  parse d w := match w with
    | [] => none
    | a :: _ => some (1, .NewPacket { Packet.new with data := [a] }, d)
  need _ _ := 1

theorem singles_fits : singles.Framed ∧ singles.Fits := by
  refine ⟨⟨fun _ _ _ _ _ h => h, fun _ _ _ _ => by simp [singles], ?_, ?_, ?_⟩, ⟨?_, ?_⟩⟩
  · intro d w u x h
    cases w with
    | nil => cases h
    | cons a l => exact h
  · intro d w h
    cases w with
    | nil => simp [singles]
    | cons a l => cases h
  · intro d w k ev d' n h
    cases w with
    | nil => cases h
    | cons a l => cases h; simp
  · intro d i w k d' i' h
    cases h; simp
  · intro d w k ev d' h
    cases w with
    | nil => cases h
    | cons a l => cases h; simp

/-- A record of 4 GiB but one byte, and three behind it: the same without checks, a panic with them. -/
example :
    firsts boxes (buffered gigabytes) 3 4 (Context.new [2 ^ 32 - 1] (withCapacity 4 0)) = .ok [[0], [0], [1], [1]] ∧
    firsts boxes (bufferedN ⟨32, false⟩ gigabytes) 3 4 (Context.new [2 ^ 32 - 1] (withCapacity 4 0)) = .ok [[0], [0], [1], [1]] ∧
    (∀ d w k ev d', singles.parse d w = some (k, ev, d') → k < 2 ^ 32) := by
  refine ⟨by decide +kernel, by decide +kernel, ?_⟩
  intro d w k ev d' h
  cases w with
  | nil => cases h
  | cons a l => cases h; decide

/-- Records of a byte on a target of four bits. -/
example :
    (firsts singles (bufferedN ⟨4, true⟩ gigabytes) 3 15 (Context.new () (withCapacity 4 0))).isOk = true ∧
    firsts singles (bufferedN ⟨4, true⟩ gigabytes) 3 16 (Context.new () (withCapacity 4 0)) = .error .overflow ∧
    (firsts singles (bufferedN ⟨4, false⟩ gigabytes) 3 40 (Context.new () (withCapacity 4 0))).isOk = true := by
  decide +kernel

/-- Two records that are longer than 4 GiB, before four buffered bytes: the first is skipped by three bytes only. -/
example :
    firsts boxes (buffered gigabytes) 3 3 (Context.new [2 ^ 32 + 3, 2 ^ 32 + 9] (withCapacity 4 0)) = .ok [[0], [1], [2]] ∧
    firsts (cut 32 boxes) (buffered gigabytes) 3 3 (Context.new [2 ^ 32 + 3, 2 ^ 32 + 9] (withCapacity 4 0)) =
      .ok [[0], [0], [1]] ∧
    firsts boxes (bufferedN ⟨32, false⟩ gigabytes) 3 3 (Context.new [2 ^ 32 + 3, 2 ^ 32 + 9] (withCapacity 4 0)) =
      .ok [[0], [0], [1]] := by
  decide +kernel

end Verif.Live
