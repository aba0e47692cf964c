import Verif.Acc.Spec

namespace Verif.Acc
open Verif Verif.Io

/-- The buffered, undelivered bytes. -/
def win (r : Acc) : List U8 := (r.buf.drop r.pos).take (r.end - r.pos)

/-- The invariant: the window shows the stream at `index` and the inner reader stands behind it. -/
structure Inv (dat : List U8) (r : Acc) : Prop where
  src : r.inner.data = dat
  pe : r.pos ≤ r.end
  eb : r.end ≤ r.buf.length
  ip : r.inner.pos = r.index + (r.end - r.pos)
  win : win r = (dat.drop r.index).take (r.end - r.pos)

theorem win_length {dat r} (h : Inv dat r) : (win r).length = r.end - r.pos := by
  have := h.pe; have := h.eb
  simp only [Acc.win, List.length_take, List.length_drop]; omega

theorem Inv.inData {dat r} (h : Inv dat r) : r.end - r.pos = 0 ∨ r.index + (r.end - r.pos) ≤ dat.length := by
  have h1 := win_length h
  rw [h.win, List.length_take, List.length_drop] at h1
  omega

theorem Inv.at {dat r} (h : Inv dat r) : At dat r.index (Acc.win r) := by
  unfold At; rw [win_length h]; exact h.win

theorem At.take {dat p l} (h : At dat p l) (n : Nat) : At dat p (l.take n) := by
  unfold At at *
  rw [List.length_take]
  conv => lhs; rw [h]
  rw [List.take_take]

theorem At.append {dat p l l'} (h : At dat p l) (h' : At dat (p + l.length) l') : At dat p (l ++ l') := by
  unfold At at *
  rw [List.length_append, List.take_add, List.drop_drop]
  rw [← h', ← h]

theorem data_ok {dat r} (h : Inv dat r) : data r = .ok (win r) := by
  simp only [data, sliceRange, h.pe, h.eb, and_self, if_true]; rfl

theorem consume_inv {dat r} (h : Inv dat r) {k : Nat} (hk : k ≤ r.end - r.pos) :
    Inv dat (consume r k) ∧ (consume r k).index = r.index + k ∧ win (consume r k) = (win r).drop k := by
  have h1 := h.pe
  have hw : win (consume r k) = (win r).drop k := by
    simp only [win, consume]
    rw [List.drop_take, List.drop_drop]
    have : min (r.pos + k) r.end = r.pos + k := by omega
    rw [this]
    congr 1; omega
  refine ⟨⟨h.src, ?_, h.eb, ?_, ?_⟩, rfl, hw⟩
  · simp only [consume]; omega
  · have := h.ip; simp only [consume]; omega
  · rw [hw, h.win, List.drop_take, List.drop_drop]
    simp only [consume]
    congr 1; omega

theorem reset_inv {dat r} (h : Inv dat r) : ∃ r', resetBufferPosition r = .ok r' ∧ Inv dat r' ∧
    r'.pos = 0 ∧ r'.end = r.end - r.pos ∧ r'.buf.length = r.buf.length ∧ r'.index = r.index ∧
    r'.inner = r.inner ∧ win r' = win r := by
  have h1 := h.pe
  have h2 := h.eb
  have hl := win_length h
  unfold resetBufferPosition
  rw [usub_ok h1]
  simp only [ok_bind]
  by_cases hw : r.end - r.pos > 0
  · have hs : sliceRange r.buf r.pos r.end = .ok (win r) := data_ok h
    simp only [hw, if_true, copyWithin0, hs, ok_bind, pure_eq_ok]
    have hwin : ((win r ++ r.buf.drop (win r).length).drop 0).take (r.end - r.pos - 0) = win r := by
      rw [List.drop_zero, Nat.sub_zero, ← hl, List.take_left]
    refine ⟨_, rfl, ⟨h.src, Nat.zero_le _, ?_, ?_, ?_⟩, rfl, rfl, ?_, rfl, rfl, hwin⟩
    · simp only [List.length_append, List.length_drop]; omega
    · have := h.ip; simp only; omega
    · simp only [win] at hwin ⊢; rw [hwin]; exact h.win
    · simp only [List.length_append, List.length_drop]; omega
  · have h0 : r.end - r.pos = 0 := by omega
    simp only [hw, if_false, ok_bind, pure_eq_ok]
    have hwin : (r.buf.drop 0).take (r.end - r.pos - 0) = win r := by simp [win, h0]
    refine ⟨_, rfl, ⟨h.src, Nat.zero_le _, ?_, ?_, ?_⟩, rfl, rfl, rfl, rfl, rfl, hwin⟩
    · simp only; omega
    · have := h.ip; simp only; omega
    · simp [win, h0]

/-- What `fill_buf` does. -/
structure FillSpec (dat : List U8) (r r' : Acc) (x : Except IoErr (List U8)) : Prop where
  inv : Inv dat r'
  index : r'.index = r.index
  len : r'.buf.length = r.buf.length
  script : r'.inner.script = r.inner.script
  clock : r'.inner.clock = r.inner.clock ∨ r'.inner.clock = r.inner.clock + 1
  shown : ∀ l, x = .ok l → l = win r' ∧ win r <+: l ∧
    (l = win r → (win r).length < r.buf.length → dat.length ≤ r.index + (win r).length)
  error : ∀ e, x = .error e → win r' = win r ∧ (r.inner.script r.inner.clock).fail = some e ∧
    r'.inner.clock = r.inner.clock + 1

theorem fillBuf_spec {dat r} (h : Inv dat r) : ∃ x r', fillBuf r = .ok (x, r') ∧ FillSpec dat r r' x := by
  unfold fillBuf
  by_cases hc : r.pos ≠ 0 ∨ r.end ≠ r.buf.length
  · rw [if_pos hc]
    obtain ⟨r1, a1, a2, a3, a4, a5, a6, a7, a8⟩ := reset_inv h
    have hl := win_length h
    have hl1 := win_length a2
    rw [a1]
    have heb := a2.eb
    simp only [ok_bind, sliceFrom_ok heb]
    have hs := Source.read_spec r1.inner (r1.buf.drop r1.end).length
    cases hr : r1.inner.read (r1.buf.drop r1.end).length with
    | mk x s' =>
      rw [hr] at hs
      simp only at hs
      cases x with
      | error e =>
        refine ⟨_, _, rfl, ?_⟩
        obtain ⟨e1, e2⟩ := hs.error e rfl
        refine ⟨⟨hs.data.trans a2.src, a2.pe, a2.eb, ?_, a2.win⟩, a6, a5, ?_, ?_, ?_, ?_⟩
        · simp only; rw [e1]; exact a2.ip
        · simp only; rw [hs.script, a7]
        · right; simp only; rw [hs.clock, a7]
        · intro l hl; cases hl
        · intro e' he
          cases he
          exact ⟨a8, by rw [← a7]; exact e2, by simp only; rw [hs.clock, a7]⟩
      | ok l =>
        obtain ⟨e1, e2, e3, e4⟩ := hs.ok l rfl
        rw [List.length_drop] at e2
        have hwlen : (win r1).length = r1.end := by rw [hl1, a3]; simp
        have hw1 : r1.buf.take r1.end = win r1 := by simp [win, a3]
        have hwin' : ((r1.buf.take r1.end ++ l ++ r1.buf.drop (r1.end + l.length)).drop r1.pos).take
            (r1.end + l.length - r1.pos) = win r1 ++ l := by
          rw [a3, List.drop_zero, Nat.sub_zero, hw1]
          have : r1.end + l.length = (win r1 ++ l).length := by rw [List.length_append, hwlen]
          rw [this, List.take_left]
        have hip := a2.ip
        rw [a3] at hip
        have hat : At dat r1.index (win r1 ++ l) := by
          apply At.append a2.at
          unfold At
          rw [hwlen, ← a2.src, ← show r1.inner.pos = r1.index + r1.end by omega]
          exact e1
        have hinv : Inv dat ({ r1 with
            inner := s'
            buf := r1.buf.take r1.end ++ l ++ r1.buf.drop (r1.end + l.length)
            «end» := r1.end + l.length } : Acc) := by
          refine ⟨hs.data.trans a2.src, ?_, ?_, ?_, ?_⟩
          · simp only; omega
          · simp only [List.length_append, List.length_take, List.length_drop]; omega
          · simp only; rw [e3, a3]; omega
          · simp only [win]
            rw [hwin', a3, Nat.sub_zero]
            unfold At at hat
            rw [hat, List.length_append, hwlen]
        simp only [data_ok hinv, ok_bind, pure_eq_ok]
        refine ⟨_, _, rfl, hinv, a6, ?_, ?_, ?_, ?_, ?_⟩
        · simp only [List.length_append, List.length_take, List.length_drop]; omega
        · simp only; rw [hs.script, a7]
        · right; simp only; rw [hs.clock, a7]
        · intro l' hl'
          simp only [Except.ok.injEq] at hl'
          subst hl'
          refine ⟨rfl, ?_, ?_⟩
          · simp only [win] at a8 ⊢
            rw [hwin', ← a8]
            exact List.prefix_append _ _
          · intro hsame hroom
            replace hsame : win r1 ++ l = win r := by rw [← hwin']; exact hsame
            rw [a8] at hsame
            have hnil : l = [] := by
              have := congrArg List.length hsame
              rw [List.length_append] at this
              exact List.eq_nil_of_length_eq_zero (by omega)
            have := e4 hnil
            rw [List.length_drop, a2.src] at this
            omega
        · intro e he; cases he
  · rw [if_neg hc]
    have hp : r.pos = 0 ∧ r.end = r.buf.length := by
      constructor
      · exact Decidable.byContradiction fun hh => hc (.inl hh)
      · exact Decidable.byContradiction fun hh => hc (.inr hh)
    rw [data_ok h]
    refine ⟨_, _, rfl, h, rfl, rfl, rfl, .inl rfl, ?_, ?_⟩
    · intro l hl
      simp only [Except.ok.injEq] at hl
      subst hl
      refine ⟨rfl, List.prefix_rfl, ?_⟩
      intro _ hlt
      rw [win_length h] at hlt
      omega
    · intro e he; cases he

/-- What `read` does. -/
structure RSpec (dat : List U8) (r r' : Acc) (n : Nat) (x : Except IoErr (List U8)) : Prop where
  inv : Inv dat r'
  len : r'.buf.length = r.buf.length
  script : r'.inner.script = r.inner.script
  clock : r'.inner.clock = r.inner.clock ∨ r'.inner.clock = r.inner.clock + 1
  ok : ∀ l, x = .ok l → At dat r.index l ∧ l.length ≤ n ∧ r'.index = r.index + l.length ∧
    (l = [] → n = 0 ∨ dat.length ≤ r.index) ∧ (n ≤ (win r).length → l = (win r).take n)
  error : ∀ e, x = .error e → r'.index = r.index ∧ win r' = win r ∧
    (r.inner.script r.inner.clock).fail = some e ∧ r'.inner.clock = r.inner.clock + 1

theorem read_spec {dat r} (h : Inv dat r) (n : Nat) : ∃ x r', read r n = .ok (x, r') ∧ RSpec dat r r' n x := by
  have h1 := h.pe
  have h2 := h.eb
  have hl := win_length h
  unfold read
  rw [usub_ok h1]
  simp only [ok_bind]
  by_cases hn : n < r.end - r.pos
  · rw [if_pos hn]
    have hs : sliceRange r.buf r.pos (r.pos + n) = .ok ((win r).take n) := by
      simp only [sliceRange, show r.pos ≤ r.pos + n ∧ r.pos + n ≤ r.buf.length by omega, and_self, if_true, win]
      rw [List.take_take]
      congr 2; omega
    rw [hs]
    have hlen : ((win r).take n).length = n := by rw [List.length_take]; omega
    simp only [ok_bind, pure_eq_ok]
    obtain ⟨c1, c2, c3⟩ := consume_inv h (k := ((win r).take n).length) (by omega)
    refine ⟨_, _, rfl, c1, rfl, rfl, .inl rfl, ?_, ?_⟩
    · intro l hl'
      cases hl'
      refine ⟨h.at.take n, by omega, c2, ?_, fun _ => rfl⟩
      intro h0; rw [h0] at hlen; left; exact hlen.symm
    · intro e he; cases he
  · rw [if_neg hn]
    by_cases hb : n > r.buf.length
    · rw [if_pos hb]
      have hs : sliceRange r.buf r.pos r.end = .ok (win r) := data_ok h
      have htk : (win r).take n = win r := List.take_of_length_le (by omega)
      rw [hs]
      simp only [ok_bind, htk, usub_ok (show r.end - r.pos ≤ n by omega)]
      have hrs := Source.read_spec r.inner (n - (r.end - r.pos))
      cases hr : r.inner.read (n - (r.end - r.pos)) with
      | mk x s' =>
        rw [hr] at hrs
        simp only at hrs
        cases x with
        | error e =>
          obtain ⟨e1, e2⟩ := hrs.error e rfl
          refine ⟨_, _, rfl, ⟨hrs.data.trans h.src, h1, h2, ?_, h.win⟩, rfl, hrs.script, .inr hrs.clock, ?_, ?_⟩
          · simp only; rw [e1]; exact h.ip
          · intro l hl'; cases hl'
          · intro e' he; cases he; exact ⟨rfl, rfl, e2, hrs.clock⟩
        | ok l2 =>
          obtain ⟨e1, e2, e3, e4⟩ := hrs.ok l2 rfl
          have hip := h.ip
          have hinv : Inv dat (consume { r with inner := s' } (l2.length + (win r).length)) := by
            refine ⟨hrs.data.trans h.src, ?_, h2, ?_, ?_⟩
            · simp only [consume]; omega
            · simp only [consume]; rw [e3]; omega
            · have hm : min (r.pos + (l2.length + (win r).length)) r.end = r.end := by omega
              generalize (win r).length = k at *
              simp only [win, consume, hm, Nat.sub_self, List.take_zero]
          obtain ⟨r1, a1, a2, a3, a4, a5, a6, a7, a8⟩ := reset_inv hinv
          simp only [a1, ok_bind, pure_eq_ok]
          refine ⟨_, _, rfl, a2, a5, by rw [a7]; exact hrs.script, .inr (by rw [a7]; exact hrs.clock), ?_, ?_⟩
          · intro l hl'
            cases hl'
            refine ⟨?_, ?_, ?_, ?_, ?_⟩
            · apply h.at.append
              unfold At
              rw [hl, ← hip, ← h.src]
              exact e1
            · rw [List.length_append]; omega
            · rw [a6, List.length_append]; simp only [consume]; omega
            · intro h0
              rw [List.append_eq_nil_iff] at h0
              have hw0 : (win r).length = 0 := by rw [h0.1]; rfl
              have := e4 h0.2
              rw [h.src] at this
              omega
            · intro hnw; omega
          · intro e he; cases he
    · rw [if_neg hb]
      obtain ⟨x, r1, a1, a2⟩ := fillBuf_spec h
      rw [a1]
      simp only [ok_bind]
      cases x with
      | error e =>
        obtain ⟨b1, b2, b3⟩ := a2.error e rfl
        refine ⟨_, _, rfl, a2.inv, a2.len, a2.script, a2.clock, ?_, ?_⟩
        · intro l hl'; cases hl'
        · intro e' he; cases he; exact ⟨a2.index, b1, b2, b3⟩
      | ok rem =>
        obtain ⟨b1, b2, b3⟩ := a2.shown rem rfl
        have hl1 := win_length a2.inv
        obtain ⟨c1, c2, c3⟩ := consume_inv a2.inv (k := (rem.take n).length)
          (by rw [List.length_take, b1]; omega)
        refine ⟨_, _, rfl, c1, a2.len, a2.script, a2.clock, ?_, ?_⟩
        · intro l hl'
          cases hl'
          refine ⟨?_, ?_, ?_, ?_, ?_⟩
          · rw [b1]; have := a2.inv.at.take n; rwa [a2.index] at this
          · rw [List.length_take]; omega
          · rw [c2, a2.index]
          · intro h0
            by_cases hn0 : n = 0
            · exact .inl hn0
            · right
              have hrem : rem = [] := by
                rw [List.take_eq_nil_iff] at h0
                rcases h0 with h0 | h0
                · exact absurd h0 hn0
                · exact h0
              rw [hrem] at b2 b3
              have hw : win r = [] := List.prefix_nil.mp b2
              have := b3 hw.symm (by rw [hw]; simp only [List.length_nil]; omega)
              rw [hw] at this
              simpa using this
          · intro hnw
            obtain ⟨t, ht⟩ := b2
            rw [← ht, List.take_append_of_le_length hnw]
        · intro e he; cases he

/-- What a seek does in the inner reader. -/
theorem source_seek (s : Source) (sf : SeekFrom) :
    (s.seek sf).2.data = s.data ∧ (s.seek sf).2.script = s.script ∧ (s.seek sf).2.clock = s.clock + 1 ∧
    (∀ n, (s.seek sf).1 = .ok n → (n : Int) = s.target sf ∧ (s.seek sf).2.pos = n) ∧
    (∀ e, (s.seek sf).1 = .error e → (s.seek sf).2.pos = s.pos ∧
      ((s.script s.clock).fail = some e ∨ s.target sf < 0 ∧ e = .invalidInput)) ∧
    ((s.script s.clock).fail = none → 0 ≤ s.target sf → (s.seek sf).1 = .ok (s.target sf).toNat) ∧
    (s.target sf < 0 → ∃ e, (s.seek sf).1 = .error e) := by
  unfold Source.seek
  cases h : (s.script s.clock).fail with
  | some e => simp
  | none =>
    by_cases h0 : s.target sf < 0
    · simp only [h0, if_true]
      refine ⟨trivial, trivial, trivial, by simp, ?_, ?_, by simp⟩
      · intro e he; cases he; simp
      · intro _ h1; omega
    · simp only [h0, if_false]
      refine ⟨trivial, trivial, trivial, ?_, by simp, by simp, by simp⟩
      intro n hn
      cases hn
      refine ⟨?_, rfl⟩
      omega

/-- A seek that is passed on. -/
structure SeekSpec (dat : List U8) (r r' : Acc) (t : Int) (x : Except IoErr Nat) : Prop where
  inv : Inv dat r'
  len : r'.buf.length = r.buf.length
  script : r'.inner.script = r.inner.script
  ok : ∀ n, x = .ok n → (n : Int) = t ∧ r'.index = n
  error : ∀ e, x = .error e → ((r'.index = r.index ∧ win r' = win r) ∨ ((r'.index : Int) = t)) ∧
    ((∃ c, (r.inner.script c).fail = some e) ∨ t < 0 ∧ e = .invalidInput)
  neg : t < 0 → ∃ e, x = .error e ∧ r'.index = r.index ∧ win r' = win r
  healthy : (∀ c, (r.inner.script c).fail = none) → 0 ≤ t → x = .ok t.toNat

theorem seekInner_spec {dat r} (h : Inv dat r) (sf : SeekFrom) :
    ∃ x r', seekInner r sf = .ok (x, r') ∧ SeekSpec dat r r' (r.inner.target sf) x := by
  obtain ⟨s1, s2, s3, s4, s5, s6, s7⟩ := source_seek r.inner sf
  unfold seekInner
  cases hs : r.inner.seek sf with
  | mk x s' =>
    rw [hs] at s1 s2 s3 s4 s5 s6 s7
    simp only at s1 s2 s3 s4 s5 s6 s7
    cases x with
    | error e =>
      obtain ⟨g1, g2⟩ := s5 e rfl
      refine ⟨_, _, rfl, ⟨s1.trans h.src, h.pe, h.eb, ?_, h.win⟩, rfl, s2, ?_, ?_, ?_, ?_⟩
      · simp only; rw [g1]; exact h.ip
      · intro n hn; cases hn
      · intro e' he; cases he; exact ⟨.inl ⟨rfl, rfl⟩, g2.imp (fun h => ⟨_, h⟩) id⟩
      · intro _; exact ⟨e, rfl, rfl, rfl⟩
      · intro hok h0
        exact s6 (hok _) h0
    | ok sz =>
      obtain ⟨g1, g2⟩ := s4 sz rfl
      have hinv : Inv dat ({ r with inner := s', index := sz, pos := 0, «end» := 0 } : Acc) := by
        refine ⟨s1.trans h.src, Nat.le_refl _, Nat.zero_le _, ?_, ?_⟩
        · simp only; omega
        · simp [win]
      obtain ⟨y, r1, a1, a2⟩ := fillBuf_spec hinv
      simp only [a1, ok_bind]
      have hneg : ¬ r.inner.target sf < 0 := by
        intro hh; obtain ⟨e, he⟩ := s7 hh; cases he
      cases y with
      | error e =>
        refine ⟨_, _, rfl, a2.inv, a2.len, a2.script.trans s2, ?_, ?_, fun hh => absurd hh hneg, ?_⟩
        · intro n hn; cases hn
        · intro e' he
          cases he
          refine ⟨.inr (by rw [a2.index]; exact g1), .inl ⟨s'.clock, ?_⟩⟩
          rw [← s2]; exact (a2.error e rfl).2.1
        · intro hok _
          have := (a2.error e rfl).2.1
          simp only [s2] at this
          rw [hok] at this
          cases this
      | ok l =>
        refine ⟨_, _, rfl, a2.inv, a2.len, a2.script.trans s2, ?_, ?_, fun hh => absurd hh hneg, ?_⟩
        · intro n hn; cases hn; exact ⟨g1, a2.index⟩
        · intro e' he; cases he
        · intro _ _; congr 1; omega

/-- The target of a seek, relative to the logical position except backward. -/
def seekTarget (r : Acc) : SeekFrom → Int
  | .start n => n
  | .end d => r.inner.data.length + d
  | .current d => if 0 ≤ d then r.index + d else r.inner.pos + d

theorem seek_spec {dat r} (h : Inv dat r) (sf : SeekFrom) :
    ∃ x r', seek r sf = .ok (x, r') ∧ SeekSpec dat r r' (seekTarget r sf) x := by
  have h1 := h.pe
  have h2 := h.eb
  have hip := h.ip
  cases sf with
  | start n =>
    unfold seek
    simp only
    by_cases hn : n ≥ r.index
    · rw [if_pos hn, usub_ok (by omega)]
      simp only [ok_bind]
      by_cases hn2 : n < r.index + r.end - r.pos
      · rw [if_pos hn2]
        obtain ⟨c1, c2, c3⟩ := consume_inv h (k := n - r.index) (by omega)
        have he : ({ r with pos := r.pos + (n - r.index), index := n } : Acc) = consume r (n - r.index) := by
          simp only [consume]
          rw [show min (r.pos + (n - r.index)) r.end = r.pos + (n - r.index) by omega,
            show r.index + (n - r.index) = n by omega]
        rw [he]
        refine ⟨_, _, rfl, c1, rfl, rfl, ?_, (fun e he => nomatch he), ?_, ?_⟩
        · intro m hm; cases hm; exact ⟨rfl, by rw [c2]; omega⟩
        · intro hneg; simp only [seekTarget] at hneg; omega
        · intro _ _; simp [seekTarget]
      · rw [if_neg hn2]; exact seekInner_spec h (.start n)
    · rw [if_neg hn]; exact seekInner_spec h (.start n)
  | «end» d => exact seekInner_spec h (.end d)
  | current d =>
    unfold seek
    simp only
    rw [usub_ok h1]
    simp only [ok_bind]
    by_cases hd : d ≥ 0
    · rw [if_pos hd]
      by_cases hd2 : d.toNat ≤ r.end - r.pos
      · rw [if_pos hd2]
        obtain ⟨c1, c2, c3⟩ := consume_inv h (k := d.toNat) hd2
        have he : ({ r with index := r.index + d.toNat, pos := r.pos + d.toNat } : Acc) = consume r d.toNat := by
          simp only [consume]
          rw [show min (r.pos + d.toNat) r.end = r.pos + d.toNat by omega]
        rw [he]
        refine ⟨_, _, rfl, c1, rfl, rfl, ?_, (fun e he => nomatch he), ?_, ?_⟩
        · intro m hm; cases hm
          refine ⟨?_, c2⟩
          simp only [seekTarget, if_pos hd]; omega
        · intro hneg; simp only [seekTarget, if_pos hd] at hneg; omega
        · intro _ _; simp only [seekTarget, if_pos hd]; congr 1; omega
      · rw [if_neg hd2]
        have := seekInner_spec h (.current (d - ((r.end - r.pos : Nat) : Int)))
        have he : r.inner.target (.current (d - ((r.end - r.pos : Nat) : Int))) = seekTarget r (.current d) := by
          simp only [Source.target, seekTarget, if_pos hd]; omega
        rwa [he] at this
    · rw [if_neg hd]
      have := seekInner_spec h (.current d)
      have he : r.inner.target (.current d) = seekTarget r (.current d) := by
        simp only [Source.target, seekTarget, if_neg hd]
      rwa [he] at this

theorem withCapacity_inv (cap : Nat) (s : Source) (h0 : s.pos = 0) : Inv s.data (withCapacity cap s) := by
  refine ⟨rfl, Nat.le_refl _, Nat.zero_le _, ?_, ?_⟩
  · simpa [withCapacity] using h0
  · simp [win, withCapacity]

theorem grow_inv {dat r} (h : Inv dat r) (k : Nat) : Inv dat (grow r k) ∧ win (grow r k) = win r := by
  have h2 := h.eb
  have h1 := h.pe
  have hw : win (grow r k) = win r := by
    simp only [win, grow]
    rw [List.drop_append_of_le_length (by omega), List.take_append_of_le_length]
    rw [List.length_drop]; omega
  refine ⟨⟨h.src, h.pe, ?_, h.ip, ?_⟩, hw⟩
  · simp only [grow, List.length_append]; omega
  · rw [hw]; exact h.win

/-- `read_exact`, whatever the inner reader does. -/
theorem readExact_spec {dat : List U8} (fuel : Nat) {r : Acc} (h : Inv dat r) (n : Nat) :
    readExact read fuel r n = .error .fuel ∨
    ∃ x r', readExact read fuel r n = .ok (x, r') ∧ Inv dat r' ∧
      (r'.inner.script = r.inner.script ∧ r'.buf.length = r.buf.length) ∧
      (∀ l, x = .ok l → At dat r.index l ∧ l.length = n ∧ r'.index = r.index + n) ∧
      (∀ e, x = .error e → r.index ≤ r'.index ∧ r'.index < r.index + n ∧ e ≠ .interrupted ∧
        ((∀ c, (r.inner.script c).fail = none ∨ (r.inner.script c).fail = some .interrupted) →
          e = .unexpectedEof ∧ dat.length < r.index + n)) := by
  induction fuel generalizing r n with
  | zero => exact .inl rfl
  | succ fuel ih =>
    unfold readExact
    by_cases h0 : n = 0
    · rw [if_pos h0]
      refine .inr ⟨_, _, rfl, h, ⟨rfl, rfl⟩, ?_, (fun e he => nomatch he)⟩
      intro l hl
      cases hl
      exact ⟨by simp [At], h0.symm, by omega⟩
    · rw [if_neg h0]
      obtain ⟨x, r1, a1, a2⟩ := read_spec h n
      rw [a1]
      simp only [ok_bind]
      cases x with
      | error e =>
        obtain ⟨b1, b2, b3, b4⟩ := a2.error e rfl
        by_cases hi : e = .interrupted
        · subst hi
          simp only
          rcases ih a2.inv n with hf | ⟨y, r2, c1, c2, c3, c4, c5⟩
          · exact .inl hf
          · refine .inr ⟨y, r2, c1, c2, ⟨c3.1.trans a2.script, c3.2.trans a2.len⟩, ?_, ?_⟩
            · intro l hl; rw [← b1]; exact c4 l hl
            · intro e he; rw [← b1, ← a2.script]; exact c5 e he
        · have hm : (match (Except.error e : Except IoErr (List U8)) with
              | .error .interrupted => readExact read fuel r1 n
              | .error e => .ok (.error e, r1)
              | .ok [] => .ok (.error .unexpectedEof, r1)
              | .ok l => do
                let (y, r) ← readExact read fuel r1 (n - l.length)
                match y with
                | .error e => .ok (.error e, r)
                | .ok l2 => .ok (.ok (l ++ l2), r)) = .ok (.error e, r1) := by
            cases e <;> first | rfl | exact absurd rfl hi
          refine .inr ⟨.error e, r1, hm, a2.inv, ⟨a2.script, a2.len⟩, (fun l hl => nomatch hl), ?_⟩
          intro e' he
          cases he
          refine ⟨by omega, by omega, hi, ?_⟩
          intro hall
          rcases hall r.inner.clock with hh | hh
          · rw [hh] at b3; cases b3
          · rw [hh] at b3; cases b3; exact absurd rfl hi
      | ok l =>
        obtain ⟨b1, b2, b3, b4, _⟩ := a2.ok l rfl
        cases l with
        | nil =>
          refine .inr ⟨_, _, rfl, a2.inv, ⟨a2.script, a2.len⟩, (fun l hl => nomatch hl), ?_⟩
          intro e he
          cases he
          have := b4 rfl
          simp only [List.length_nil] at b3
          exact ⟨by omega, by omega, by simp, fun _ => ⟨rfl, by omega⟩⟩
        | cons x xs =>
          simp only
          rcases ih a2.inv (n - (x :: xs).length) with hf | ⟨y, r2, c1, c2, c3, c4, c5⟩
          · left; rw [hf]; rfl
          · right
            rw [c1]
            simp only [ok_bind]
            cases y with
            | error e =>
              refine ⟨_, _, rfl, c2, ⟨c3.1.trans a2.script, c3.2.trans a2.len⟩, (fun l hl => nomatch hl), ?_⟩
              intro e' he
              cases he
              obtain ⟨d1, d2, d3, d4⟩ := c5 e rfl
              refine ⟨by omega, by omega, d3, ?_⟩
              intro hall
              obtain ⟨f1, f2⟩ := d4 (by rw [a2.script]; exact hall)
              exact ⟨f1, by omega⟩
            | ok l2 =>
              refine ⟨_, _, rfl, c2, ⟨c3.1.trans a2.script, c3.2.trans a2.len⟩, ?_, (fun e he => nomatch he)⟩
              intro l hl
              cases hl
              obtain ⟨d1, d2, d3⟩ := c4 l2 rfl
              refine ⟨b1.append (by rw [← b3]; exact d1), ?_, ?_⟩
              · rw [List.length_append]; omega
              · omega

/-- Termination of `read_exact` once the inner reader stops failing. -/
theorem readExact_fuel {dat : List U8} (fuel : Nat) {r : Acc} (h : Inv dat r) (n N : Nat)
    (hN : ∀ c, N ≤ c → (r.inner.script c).fail = none) (hf : n + (N - r.inner.clock) < fuel) :
    readExact read fuel r n ≠ .error .fuel := by
  induction fuel generalizing r n with
  | zero => omega
  | succ fuel ih =>
    unfold readExact
    by_cases h0 : n = 0
    · rw [if_pos h0]; simp
    · rw [if_neg h0]
      obtain ⟨x, r1, a1, a2⟩ := read_spec h n
      rw [a1]
      simp only [ok_bind]
      cases x with
      | error e =>
        obtain ⟨b1, b2, b3, b4⟩ := a2.error e rfl
        have hc : r.inner.clock < N := by
          apply Decidable.byContradiction
          intro hh
          rw [hN _ (by omega)] at b3; cases b3
        have := ih a2.inv n (by rw [a2.script]; exact hN) (by omega)
        cases e <;> first | exact this | simp
      | ok l =>
        obtain ⟨b1, b2, b3, b4, _⟩ := a2.ok l rfl
        cases l with
        | nil => simp
        | cons x xs =>
          have := ih a2.inv (n - (x :: xs).length) (by rw [a2.script]; exact hN)
            (by have := a2.clock; simp only [List.length_cons] at *; omega)
          simp only
          cases hr : readExact read fuel r1 (n - (x :: xs).length) with
          | error p =>
            rw [hr] at this
            intro hh
            simp only [error_bind, Except.error.injEq] at hh
            exact this (by rw [hh])
          | ok y =>
            obtain ⟨y, r2⟩ := y
            simp only [ok_bind]
            cases y <;> simp

end Verif.Acc
