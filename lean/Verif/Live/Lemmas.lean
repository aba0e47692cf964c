import Verif.Acc.Lemmas
import Verif.Live.Spec

namespace Verif.Live
open Verif Verif.Io Verif.Acc

variable {R : Type} {dev : Dev R} {dat : List U8} {pos len : R → Nat}

/-- The buffered, undelivered bytes. -/
def win (r : LAcc R) : List U8 := (r.buf.drop r.pos).take (r.end - r.pos)

/-- The invariant: the window shows the stream at `index`, all of it is there, and the inner reader stands behind it. -/
structure Inv (dat : List U8) (pos len : R → Nat) (r : LAcc R) : Prop where
  pe : r.pos ≤ r.end
  eb : r.end ≤ r.buf.length
  ip : pos r.inner = r.index + (r.end - r.pos)
  win : win r = (dat.drop r.index).take (r.end - r.pos)
  there : r.end - r.pos = 0 ∨ r.index + (r.end - r.pos) ≤ len r.inner

theorem win_length {r : LAcc R} (h : Inv dat pos len r) : (win r).length = r.end - r.pos := by
  have := h.pe; have := h.eb
  simp only [Live.win, List.length_take, List.length_drop]; omega

theorem Inv.at {r : LAcc R} (h : Inv dat pos len r) : At dat r.index (Live.win r) := by
  unfold At; rw [win_length h]; exact h.win

theorem data_ok {r : LAcc R} (h : Inv dat pos len r) : data r = .ok (win r) := by
  simp only [data, sliceRange, h.pe, h.eb, and_self, if_true]; rfl

theorem consume_inv {r : LAcc R} (h : Inv dat pos len r) {k : Nat} (hk : k ≤ r.end - r.pos) :
    Inv dat pos len (consume r k) ∧ (consume r k).index = r.index + k ∧ win (consume r k) = (win r).drop k := by
  have h1 := h.pe
  have hw : win (consume r k) = (win r).drop k := by
    simp only [win, consume]
    rw [List.drop_take, List.drop_drop]
    have : min (r.pos + k) r.end = r.pos + k := by omega
    rw [this]
    congr 1; omega
  refine ⟨⟨?_, h.eb, ?_, ?_, ?_⟩, rfl, hw⟩
  · simp only [consume]; omega
  · have := h.ip; simp only [consume]; omega
  · rw [hw, h.win, List.drop_take, List.drop_drop]
    simp only [consume]
    congr 1; omega
  · have := h.there; simp only [consume]; omega

theorem reset_inv {r : LAcc R} (h : Inv dat pos len r) : ∃ r', resetBufferPosition r = .ok r' ∧ Inv dat pos len r' ∧
    r'.pos = 0 ∧ r'.end = r.end - r.pos ∧ r'.buf.length = r.buf.length ∧ r'.index = r.index ∧
    r'.inner = r.inner ∧ win r' = win r := by
  have h1 := h.pe
  have h2 := h.eb
  have hl := win_length h
  unfold resetBufferPosition
  rw [usub_ok h1]
  simp only [ok_bind]
  by_cases hw : r.end - r.pos > 0
  · have hs : sliceRange r.buf r.pos r.end = .ok (win r) := data_ok h
    simp only [hw, if_true, copyWithin0, hs, ok_bind, pure_eq_ok]
    have hwin : ((win r ++ r.buf.drop (win r).length).drop 0).take (r.end - r.pos - 0) = win r := by
      rw [List.drop_zero, Nat.sub_zero, ← hl, List.take_left]
    refine ⟨_, rfl, ⟨Nat.zero_le _, ?_, ?_, ?_, ?_⟩, rfl, rfl, ?_, rfl, rfl, hwin⟩
    · simp only [List.length_append, List.length_drop]; omega
    · have := h.ip; simp only; omega
    · simp only [win] at hwin ⊢; rw [hwin]; exact h.win
    · have := h.there; simp only; omega
    · simp only [List.length_append, List.length_drop]; omega
  · have h0 : r.end - r.pos = 0 := by omega
    simp only [hw, if_false, ok_bind, pure_eq_ok]
    have hwin : (r.buf.drop 0).take (r.end - r.pos - 0) = win r := by simp [win, h0]
    refine ⟨_, rfl, ⟨Nat.zero_le _, ?_, ?_, ?_, ?_⟩, rfl, rfl, rfl, rfl, rfl, hwin⟩
    · simp only; omega
    · have := h.ip; simp only; omega
    · simp [win, h0]
    · left; simp only; omega

/-- What `fill_buf` does. -/
structure FillSpec (dev : Dev R) (dat : List U8) (pos len : R → Nat) (r r' : LAcc R)
    (x : Except IoErr (List U8)) : Prop where
  inv : Inv dat pos len r'
  index : r'.index = r.index
  size : r'.buf.length = r.buf.length
  grown : len r.inner ≤ len r'.inner
  inner : r'.inner = r.inner ∨ ∃ n, r'.inner = (dev.read r.inner n).2
  shown : ∀ l, x = .ok l → l = win r' ∧ win r <+: l ∧
    (l = win r → (win r).length < r.buf.length → len r.inner ≤ r.index + (win r).length) ∧
    ((win r).length < r.buf.length → ∃ n, r'.inner = (dev.read r.inner n).2)
  error : ∀ e, x = .error e → win r' = win r ∧ dev.Fails e ∧ ∃ n, (dev.read r.inner n).1 = .error e

theorem fillBuf_spec (hg : Grows dev dat pos len) {r : LAcc R} (h : Inv dat pos len r) :
    ∃ x r', fillBuf dev r = .ok (x, r') ∧ FillSpec dev dat pos len r r' x := by
  unfold fillBuf
  by_cases hc : r.pos ≠ 0 ∨ r.end ≠ r.buf.length
  · rw [if_pos hc]
    obtain ⟨r1, a1, a2, a3, a4, a5, a6, a7, a8⟩ := reset_inv h
    have hl := win_length h
    have hl1 := win_length a2
    rw [a1]
    have heb := a2.eb
    simp only [ok_bind, sliceFrom_ok heb]
    have hlen := hg.read_len r1.inner (r1.buf.drop r1.end).length
    have hok := hg.read_ok r1.inner (r1.buf.drop r1.end).length
    have herr := hg.read_err r1.inner (r1.buf.drop r1.end).length
    cases hr : dev.read r1.inner (r1.buf.drop r1.end).length with
    | mk x s' =>
      rw [hr] at hlen hok herr
      simp only at hlen hok herr
      cases x with
      | error e =>
        refine ⟨_, _, rfl, ?_⟩
        have e1 := herr e rfl
        refine ⟨⟨a2.pe, a2.eb, ?_, a2.win, ?_⟩, a6, a5, ?_, ?_, ?_, ?_⟩
        · simp only; rw [e1]; exact a2.ip
        · have := a2.there; simp only; omega
        · simp only; rw [← a7]; exact hlen
        · right; exact ⟨_, by simp only; rw [← a7, hr]⟩
        · intro l hl; cases hl
        · intro e' he
          cases he
          exact ⟨a8, .inl ⟨_, _, by rw [hr]⟩, _, by rw [← a7, hr]⟩
      | ok l =>
        obtain ⟨e1, e2, e3, e4, e5⟩ := hok l rfl
        rw [List.length_drop] at e2
        have hwlen : (win r1).length = r1.end := by rw [hl1, a3]; simp
        have hw1 : r1.buf.take r1.end = win r1 := by simp [win, a3]
        have hwin' : ((r1.buf.take r1.end ++ l ++ r1.buf.drop (r1.end + l.length)).drop r1.pos).take
            (r1.end + l.length - r1.pos) = win r1 ++ l := by
          rw [a3, List.drop_zero, Nat.sub_zero, hw1]
          have : r1.end + l.length = (win r1 ++ l).length := by rw [List.length_append, hwlen]
          rw [this, List.take_left]
        have hip := a2.ip
        rw [a3] at hip
        have hat : At dat r1.index (win r1 ++ l) := by
          apply At.append a2.at
          rw [hwlen, ← show pos r1.inner = r1.index + r1.end by omega]
          exact e1
        have hinv : Inv dat pos len ({ r1 with
            inner := s'
            buf := r1.buf.take r1.end ++ l ++ r1.buf.drop (r1.end + l.length)
            «end» := r1.end + l.length } : LAcc R) := by
          refine ⟨?_, ?_, ?_, ?_, ?_⟩
          · simp only; omega
          · simp only [List.length_append, List.length_take, List.length_drop]; omega
          · simp only; rw [e3, a3]; omega
          · simp only [win]
            rw [hwin', a3, Nat.sub_zero]
            unfold At at hat
            rw [hat, List.length_append, hwlen]
          · simp only
            have := a2.there
            by_cases h0 : l = []
            · simp only [h0, List.length_nil]; omega
            · have := e4 h0; omega
        simp only [data_ok hinv, ok_bind, pure_eq_ok]
        refine ⟨_, _, rfl, hinv, a6, ?_, ?_, ?_, ?_, ?_⟩
        · simp only [List.length_append, List.length_take, List.length_drop]; omega
        · simp only; rw [← a7]; exact hlen
        · right; exact ⟨_, by simp only; rw [← a7, hr]⟩
        · intro l' hl'
          simp only [Except.ok.injEq] at hl'
          subst hl'
          refine ⟨rfl, ?_, ?_, fun _ => ⟨_, by simp only; rw [← a7, hr]⟩⟩
          · simp only [win] at a8 ⊢
            rw [hwin', ← a8]
            exact List.prefix_append _ _
          · intro hsame hroom
            replace hsame : win r1 ++ l = win r := by rw [← hwin']; exact hsame
            rw [a8] at hsame
            have hnil : l = [] := by
              have := congrArg List.length hsame
              rw [List.length_append] at this
              exact List.eq_nil_of_length_eq_zero (by omega)
            have := e5 hnil
            rw [List.length_drop] at this
            rw [← a7]
            omega
        · intro e he; cases he
  · rw [if_neg hc]
    have hp : r.pos = 0 ∧ r.end = r.buf.length := by
      constructor
      · exact Decidable.byContradiction fun hh => hc (.inl hh)
      · exact Decidable.byContradiction fun hh => hc (.inr hh)
    rw [data_ok h]
    refine ⟨_, _, rfl, h, rfl, rfl, Nat.le_refl _, .inl rfl, ?_, ?_⟩
    · intro l hl
      simp only [Except.ok.injEq] at hl
      subst hl
      have hw := win_length h
      refine ⟨rfl, List.prefix_rfl, ?_, fun hlt => ?_⟩
      · intro _ hlt; omega
      · omega
    · intro e he; cases he

/-- What `read` does. -/
structure RSpec (dev : Dev R) (dat : List U8) (pos len : R → Nat) (r r' : LAcc R) (n : Nat)
    (x : Except IoErr (List U8)) : Prop where
  inv : Inv dat pos len r'
  size : r'.buf.length = r.buf.length
  grown : len r.inner ≤ len r'.inner
  ok : ∀ l, x = .ok l → At dat r.index l ∧ l.length ≤ n ∧ r'.index = r.index + l.length ∧
    (l ≠ [] → r'.index ≤ len r'.inner) ∧ (l = [] → n = 0 ∨ len r.inner ≤ r.index)
  error : ∀ e, x = .error e → r'.index = r.index ∧ win r' = win r ∧ dev.Fails e

theorem read_spec (hg : Grows dev dat pos len) {r : LAcc R} (h : Inv dat pos len r) (n : Nat) :
    ∃ x r', read dev r n = .ok (x, r') ∧ RSpec dev dat pos len r r' n x := by
  have h1 := h.pe
  have h2 := h.eb
  have hl := win_length h
  have hth := h.there
  unfold read
  rw [usub_ok h1]
  simp only [ok_bind]
  by_cases hn : n < r.end - r.pos
  · rw [if_pos hn]
    have hs : sliceRange r.buf r.pos (r.pos + n) = .ok ((win r).take n) := by
      simp only [sliceRange, show r.pos ≤ r.pos + n ∧ r.pos + n ≤ r.buf.length by omega, and_self, if_true, win]
      rw [List.take_take]
      congr 2; omega
    rw [hs]
    have hlen : ((win r).take n).length = n := by rw [List.length_take]; omega
    simp only [ok_bind, pure_eq_ok]
    obtain ⟨c1, c2, c3⟩ := consume_inv h (k := ((win r).take n).length) (by omega)
    refine ⟨_, _, rfl, c1, rfl, Nat.le_refl _, ?_, ?_⟩
    · intro l hl'
      cases hl'
      refine ⟨h.at.take n, by omega, c2, ?_, ?_⟩
      · intro _
        rw [c2]
        change r.index + ((win r).take n).length ≤ len r.inner
        omega
      · intro h0; rw [h0] at hlen; left; exact hlen.symm
    · intro e he; cases he
  · rw [if_neg hn]
    by_cases hb : n > r.buf.length
    · rw [if_pos hb]
      have hs : sliceRange r.buf r.pos r.end = .ok (win r) := data_ok h
      have htk : (win r).take n = win r := List.take_of_length_le (by omega)
      rw [hs]
      simp only [ok_bind, htk, usub_ok (show r.end - r.pos ≤ n by omega)]
      have hlen := hg.read_len r.inner (n - (r.end - r.pos))
      have hok := hg.read_ok r.inner (n - (r.end - r.pos))
      have herr := hg.read_err r.inner (n - (r.end - r.pos))
      cases hr : dev.read r.inner (n - (r.end - r.pos)) with
      | mk x s' =>
        rw [hr] at hlen hok herr
        simp only at hlen hok herr
        cases x with
        | error e =>
          have e1 := herr e rfl
          refine ⟨_, _, rfl, ⟨h1, h2, ?_, h.win, ?_⟩, rfl, hlen, ?_, ?_⟩
          · simp only; rw [e1]; exact h.ip
          · simp only; omega
          · intro l hl'; cases hl'
          · intro e' he; cases he; exact ⟨rfl, rfl, .inl ⟨_, _, by rw [hr]⟩⟩
        | ok l2 =>
          obtain ⟨e1, e2, e3, e4, e5⟩ := hok l2 rfl
          have hip := h.ip
          have hinv : Inv dat pos len (consume { r with inner := s' } (l2.length + (win r).length)) := by
            refine ⟨?_, h2, ?_, ?_, ?_⟩
            · simp only [consume]; omega
            · simp only [consume]; rw [e3]; omega
            · have hm : min (r.pos + (l2.length + (win r).length)) r.end = r.end := by omega
              generalize (win r).length = k at *
              simp only [win, consume, hm, Nat.sub_self, List.take_zero]
            · left; simp only [consume]; omega
          obtain ⟨r1, a1, a2, a3, a4, a5, a6, a7, a8⟩ := reset_inv hinv
          simp only [a1, ok_bind, pure_eq_ok]
          refine ⟨_, _, rfl, a2, a5, by rw [a7]; exact hlen, ?_, ?_⟩
          · intro l hl'
            cases hl'
            refine ⟨?_, ?_, ?_, ?_, ?_⟩
            · apply h.at.append
              rw [hl, ← hip]
              exact e1
            · rw [List.length_append]; omega
            · rw [a6, List.length_append]; simp only [consume]; omega
            · intro hne
              rw [a6, a7]
              change r.index + (l2.length + (win r).length) ≤ len s'
              by_cases h0 : l2 = []
              · have : (win r).length ≠ 0 := by
                  intro h3
                  exact hne (by rw [h0, List.eq_nil_of_length_eq_zero h3]; rfl)
                rw [h0, List.length_nil]; omega
              · have := e4 h0; omega
            · intro h0
              rw [List.append_eq_nil_iff] at h0
              have hw0 : (win r).length = 0 := by rw [h0.1]; rfl
              have := e5 h0.2
              omega
          · intro e he; cases he
    · rw [if_neg hb]
      obtain ⟨x, r1, a1, a2⟩ := fillBuf_spec hg h
      rw [a1]
      simp only [ok_bind]
      cases x with
      | error e =>
        obtain ⟨b1, b2, b3⟩ := a2.error e rfl
        refine ⟨_, _, rfl, a2.inv, a2.size, a2.grown, ?_, ?_⟩
        · intro l hl'; cases hl'
        · intro e' he; cases he; exact ⟨a2.index, b1, b2⟩
      | ok rem =>
        obtain ⟨b1, b2, b3, b4⟩ := a2.shown rem rfl
        have hl1 := win_length a2.inv
        have hth1 := a2.inv.there
        obtain ⟨c1, c2, c3⟩ := consume_inv a2.inv (k := (rem.take n).length)
          (by rw [List.length_take, b1]; omega)
        refine ⟨_, _, rfl, c1, a2.size, a2.grown, ?_, ?_⟩
        · intro l hl'
          cases hl'
          refine ⟨?_, ?_, ?_, ?_, ?_⟩
          · rw [b1]; have := a2.inv.at.take n; rwa [a2.index] at this
          · rw [List.length_take]; omega
          · rw [c2, a2.index]
          · intro hne
            rw [c2]
            change r1.index + (rem.take n).length ≤ len r1.inner
            have h5 : (rem.take n).length ≠ 0 := fun h3 => hne (List.eq_nil_of_length_eq_zero h3)
            rw [List.length_take, b1] at h5 ⊢
            omega
          · intro h0
            by_cases hn0 : n = 0
            · exact .inl hn0
            · right
              have hrem : rem = [] := by
                rw [List.take_eq_nil_iff] at h0
                rcases h0 with h0 | h0
                · exact absurd h0 hn0
                · exact h0
              rw [hrem] at b2 b3
              have hw : win r = [] := List.prefix_nil.mp b2
              have := b3 hw.symm (by rw [hw]; simp only [List.length_nil]; omega)
              rw [hw] at this
              simpa using this
        · intro e he; cases he

/-- A seek that is passed on, to a target that may depend on how long the stream is then, or anywhere if it is `free`. -/
structure SeekSpec (dev : Dev R) (dat : List U8) (pos len : R → Nat) (r r' : LAcc R) (goal : Nat → Int)
    (free : Prop) (x : Except IoErr Nat) : Prop where
  inv : Inv dat pos len r'
  size : r'.buf.length = r.buf.length
  grown : len r.inner ≤ len r'.inner
  ok : ∀ m, x = .ok m → r'.index = m ∧ ∃ t, len r.inner ≤ t ∧ t ≤ len r'.inner ∧ (free ∨ (m : Int) = goal t)
  error : ∀ e, x = .error e → dev.Fails e ∧ ((r'.index = r.index ∧ win r' = win r) ∨
    ∃ t, len r.inner ≤ t ∧ t ≤ len r'.inner ∧ (free ∨ (r'.index : Int) = goal t))
  healthy : dev.Healthy pos len → (∀ t, len r.inner ≤ t → 0 ≤ goal t) → ∃ m, x = .ok m

theorem seekInner_spec (hg : Grows dev dat pos len) {r : LAcc R} (h : Inv dat pos len r) (sf : SeekFrom) :
    ∃ x r', seekInner dev r sf = .ok (x, r') ∧
      SeekSpec dev dat pos len r r' (fun t => aim (pos r.inner) t sf) (Back sf) x := by
  have hlen := hg.seek_len r.inner sf
  have hok := hg.seek_ok r.inner sf
  have herr := hg.seek_err r.inner sf
  unfold seekInner
  cases hs : dev.seek r.inner sf with
  | mk x s' =>
    rw [hs] at hlen hok herr
    simp only at hlen hok herr
    cases x with
    | error e =>
      have g1 := herr e rfl
      refine ⟨_, _, rfl, ⟨h.pe, h.eb, ?_, h.win, ?_⟩, rfl, hlen, ?_, ?_, ?_⟩
      · simp only; rw [g1]; exact h.ip
      · have := h.there; simp only; omega
      · intro n hn; cases hn
      · intro e' he; cases he; exact ⟨.inr ⟨_, _, by rw [hs]⟩, .inl ⟨rfl, rfl⟩⟩
      · intro hh h0
        obtain ⟨m, hm⟩ := hh.seek r.inner sf h0
        rw [hs] at hm; cases hm
    | ok sz =>
      obtain ⟨g1, t, g2, g3, g4⟩ := hok sz rfl
      have hinv : Inv dat pos len ({ r with inner := s', index := sz, pos := 0, «end» := 0 } : LAcc R) := by
        refine ⟨Nat.le_refl _, Nat.zero_le _, ?_, ?_, .inl rfl⟩
        · simp only; omega
        · simp [win]
      obtain ⟨y, r1, a1, a2⟩ := fillBuf_spec hg hinv
      simp only [a1, ok_bind]
      have hgr : len s' ≤ len r1.inner := a2.grown
      cases y with
      | error e =>
        refine ⟨_, _, rfl, a2.inv, a2.size, by omega, ?_, ?_, ?_⟩
        · intro n hn; cases hn
        · intro e' he
          cases he
          refine ⟨(a2.error e rfl).2.1, .inr ⟨t, g2, by omega, by rw [a2.index]; exact g4⟩⟩
        · intro hh _
          obtain ⟨_, _, n, hn⟩ := a2.error e rfl
          obtain ⟨l, hl⟩ := hh.read s' n
          rw [hn] at hl; cases hl
      | ok l =>
        refine ⟨_, _, rfl, a2.inv, a2.size, by omega, ?_, ?_, ?_⟩
        · intro n hn; cases hn; exact ⟨a2.index, t, g2, by omega, g4⟩
        · intro e' he; cases he
        · intro _ _; exact ⟨_, rfl⟩

/-- The target of a seek, relative to the logical position except backward. -/
def goal (pos : R → Nat) (r : LAcc R) (sf : SeekFrom) (t : Nat) : Int :=
  match sf with
  | .current d => if 0 ≤ d then r.index + d else pos r.inner + d
  | sf => aim r.index t sf

theorem seek_spec (hg : Grows dev dat pos len) {r : LAcc R} (h : Inv dat pos len r) (sf : SeekFrom) :
    ∃ x r', seek dev r sf = .ok (x, r') ∧ SeekSpec dev dat pos len r r' (goal pos r sf) (Back sf) x := by
  have h1 := h.pe
  have h2 := h.eb
  have hip := h.ip
  cases sf with
  | start n =>
    unfold seek
    simp only
    by_cases hn : n ≥ r.index
    · rw [if_pos hn, usub_ok (by omega)]
      simp only [ok_bind]
      by_cases hn2 : n < r.index + r.end - r.pos
      · rw [if_pos hn2]
        obtain ⟨c1, c2, c3⟩ := consume_inv h (k := n - r.index) (by omega)
        have he : ({ r with pos := r.pos + (n - r.index), index := n } : LAcc R) = consume r (n - r.index) := by
          simp only [consume]
          rw [show min (r.pos + (n - r.index)) r.end = r.pos + (n - r.index) by omega,
            show r.index + (n - r.index) = n by omega]
        rw [he]
        refine ⟨_, _, rfl, c1, rfl, Nat.le_refl _, ?_, (fun e he => nomatch he), fun _ _ => ⟨_, rfl⟩⟩
        intro m hm; cases hm
        exact ⟨by rw [c2]; omega, len r.inner, Nat.le_refl _, Nat.le_refl _, .inr rfl⟩
      · rw [if_neg hn2]; exact seekInner_spec hg h (.start n)
    · rw [if_neg hn]; exact seekInner_spec hg h (.start n)
  | «end» d => exact seekInner_spec hg h (.end d)
  | current d =>
    unfold seek
    simp only
    rw [usub_ok h1]
    simp only [ok_bind]
    by_cases hd : d ≥ 0
    · rw [if_pos hd]
      by_cases hd2 : d.toNat ≤ r.end - r.pos
      · rw [if_pos hd2]
        obtain ⟨c1, c2, c3⟩ := consume_inv h (k := d.toNat) hd2
        have he : ({ r with index := r.index + d.toNat, pos := r.pos + d.toNat } : LAcc R) = consume r d.toNat := by
          simp only [consume]
          rw [show min (r.pos + d.toNat) r.end = r.pos + d.toNat by omega]
        rw [he]
        refine ⟨_, _, rfl, c1, rfl, Nat.le_refl _, ?_, (fun e he => nomatch he), fun _ _ => ⟨_, rfl⟩⟩
        intro m hm; cases hm
        refine ⟨c2, len r.inner, Nat.le_refl _, Nat.le_refl _, .inr ?_⟩
        simp only [goal, if_pos hd]; omega
      · rw [if_neg hd2]
        have := seekInner_spec hg h (.current (d - ((r.end - r.pos : Nat) : Int)))
        have he : (fun t => aim (pos r.inner) t (.current (d - ((r.end - r.pos : Nat) : Int)))) =
            goal pos r (.current d) := by
          funext t
          simp only [aim, goal, if_pos hd]; omega
        have hb : Back (.current (d - ((r.end - r.pos : Nat) : Int))) = Back (.current d) := by
          simp only [Back, eq_iff_iff]; omega
        rwa [he, hb] at this
    · rw [if_neg hd]
      have := seekInner_spec hg h (.current d)
      have he : (fun t => aim (pos r.inner) t (.current d)) = goal pos r (.current d) := by
        funext t
        simp only [aim, goal, if_neg hd]
      rwa [he] at this

theorem withCapacity_inv (cap : Nat) (s : R) (h0 : pos s = 0) : Inv dat pos len (withCapacity cap s) := by
  refine ⟨Nat.le_refl _, Nat.zero_le _, ?_, ?_, .inl rfl⟩
  · simpa [withCapacity] using h0
  · simp [win, withCapacity]

theorem grow_inv {r : LAcc R} (h : Inv dat pos len r) (k : Nat) :
    Inv dat pos len (grow r k) ∧ win (grow r k) = win r := by
  have h2 := h.eb
  have h1 := h.pe
  have hw : win (grow r k) = win r := by
    simp only [win, grow]
    rw [List.drop_append_of_le_length (by omega), List.take_append_of_le_length]
    rw [List.length_drop]; omega
  refine ⟨⟨h.pe, ?_, h.ip, ?_, h.there⟩, hw⟩
  · simp only [grow, List.length_append]; omega
  · rw [hw]; exact h.win

/-- `read_exact`, whatever the inner reader does. -/
theorem readExact_spec (hg : Grows dev dat pos len) (fuel : Nat) {r : LAcc R} (h : Inv dat pos len r) (n : Nat) :
    readExact (read dev) fuel r n = .error .fuel ∨
    ∃ x r', readExact (read dev) fuel r n = .ok (x, r') ∧ Inv dat pos len r' ∧ r'.buf.length = r.buf.length ∧
      len r.inner ≤ len r'.inner ∧
      (∀ l, x = .ok l → At dat r.index l ∧ l.length = n ∧ r'.index = r.index + n ∧
        (l ≠ [] → r'.index ≤ len r'.inner)) ∧
      (∀ e, x = .error e → r.index ≤ r'.index ∧ r'.index < r.index + n ∧
        (dev.Fails e ∨ e = .unexpectedEof ∧ len r.inner ≤ r'.index)) := by
  induction fuel generalizing r n with
  | zero => exact .inl rfl
  | succ fuel ih =>
    unfold readExact
    by_cases h0 : n = 0
    · rw [if_pos h0]
      refine .inr ⟨_, _, rfl, h, rfl, Nat.le_refl _, ?_, (fun e he => nomatch he)⟩
      intro l hl
      cases hl
      exact ⟨by simp [At], h0.symm, by omega, fun hh => absurd rfl hh⟩
    · rw [if_neg h0]
      obtain ⟨x, r1, a1, a2⟩ := read_spec hg h n
      have hgr := a2.grown
      rw [a1]
      simp only [ok_bind]
      cases x with
      | error e =>
        obtain ⟨b1, b2, b3⟩ := a2.error e rfl
        by_cases hi : e = .interrupted
        · subst hi
          simp only
          rcases ih a2.inv n with hf | ⟨y, r2, c1, c2, c3, c3', c4, c5⟩
          · exact .inl hf
          · refine .inr ⟨y, r2, c1, c2, c3.trans a2.size, by omega, ?_, ?_⟩
            · intro l hl; rw [← b1]; exact c4 l hl
            · intro e he
              rw [← b1]
              obtain ⟨d1, d2, d3⟩ := c5 e he
              refine ⟨d1, d2, d3.imp id fun hh => ⟨hh.1, by omega⟩⟩
        · have hm : (match (Except.error e : Except IoErr (List U8)) with
              | .error .interrupted => readExact (read dev) fuel r1 n
              | .error e => .ok (.error e, r1)
              | .ok [] => .ok (.error .unexpectedEof, r1)
              | .ok l => do
                let (y, r) ← readExact (read dev) fuel r1 (n - l.length)
                match y with
                | .error e => .ok (.error e, r)
                | .ok l2 => .ok (.ok (l ++ l2), r)) = .ok (.error e, r1) := by
            cases e <;> first | rfl | exact absurd rfl hi
          refine .inr ⟨.error e, r1, hm, a2.inv, a2.size, hgr, (fun l hl => nomatch hl), ?_⟩
          intro e' he
          cases he
          exact ⟨by omega, by omega, .inl b3⟩
      | ok l =>
        obtain ⟨b1, b2, b3, b4, b5⟩ := a2.ok l rfl
        cases l with
        | nil =>
          refine .inr ⟨_, _, rfl, a2.inv, a2.size, hgr, (fun l hl => nomatch hl), ?_⟩
          intro e he
          cases he
          have := b5 rfl
          simp only [List.length_nil] at b3
          exact ⟨by omega, by omega, .inr ⟨rfl, by omega⟩⟩
        | cons x xs =>
          simp only
          rcases ih a2.inv (n - (x :: xs).length) with hf | ⟨y, r2, c1, c2, c3, c3', c4, c5⟩
          · left; rw [hf]; rfl
          · right
            rw [c1]
            simp only [ok_bind]
            have hb4 := b4 (by simp)
            cases y with
            | error e =>
              refine ⟨_, _, rfl, c2, c3.trans a2.size, by omega, (fun l hl => nomatch hl), ?_⟩
              intro e' he
              cases he
              obtain ⟨d1, d2, d3⟩ := c5 e rfl
              refine ⟨by omega, by omega, d3.imp id fun hh => ⟨hh.1, by omega⟩⟩
            | ok l2 =>
              refine ⟨_, _, rfl, c2, c3.trans a2.size, by omega, ?_, (fun e he => nomatch he)⟩
              intro l hl
              cases hl
              obtain ⟨d1, d2, d3, d4⟩ := c4 l2 rfl
              refine ⟨b1.append (by rw [← b3]; exact d1), ?_, ?_, ?_⟩
              · rw [List.length_append]; omega
              · omega
              · intro _
                by_cases h2 : l2 = []
                · rw [h2] at d2
                  simp only [List.length_nil] at d2
                  omega
                · exact d4 h2

end Verif.Live
