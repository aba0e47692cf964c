import Verif.Acc.Props
import Verif.Live.Lemmas
import Verif.Live.Link

/-!
# Property C133: `AccReader` over a stream that grows
-/

namespace Verif.Live
open Verif Verif.Io Verif.Acc

variable {R : Type} {dev : Dev R} {dat : List U8} {pos len : R → Nat}

theorem back_current {sf : SeekFrom} (h : Back sf) : ∃ d < 0, sf = .current d := by
  cases sf with
  | start n => exact nomatch h
  | «end» d => exact nomatch h
  | current d => exact ⟨d, h, rfl⟩

theorem step_spec (hg : Grows dev dat pos len) (fuel : Nat) {r : LAcc R} (h : Inv dat pos len r)
    (hcap : 0 < r.buf.length) (op : Op) :
    (step dev fuel r op = .error .fuel ∧ ∃ n, op = .readExact n) ∨
    ∃ o r', step dev fuel r op = .ok (o, r') ∧ Inv dat pos len r' ∧ len r.inner ≤ len r'.inner ∧
      r.buf.length ≤ r'.buf.length ∧ Sees dev.Fails dat (len r.inner) r.index op o (len r'.inner) r'.index := by
  cases op with
  | read n =>
    right
    obtain ⟨x, r1, a1, a2⟩ := read_spec hg h n
    simp only [step, a1, ok_bind]
    cases x with
    | error e =>
      obtain ⟨b1, b2, b3⟩ := a2.error e rfl
      exact ⟨_, _, rfl, a2.inv, a2.grown, Nat.le_of_eq a2.size.symm, b1, b3⟩
    | ok l =>
      obtain ⟨b1, b2, b3, b4, b5⟩ := a2.ok l rfl
      exact ⟨_, _, rfl, a2.inv, a2.grown, Nat.le_of_eq a2.size.symm, b1, b2, b3, b4, b5⟩
  | readExact n =>
    simp only [step]
    rcases readExact_spec hg fuel h n with hf | ⟨x, r1, a1, a2, a3, a4, a5, a6⟩
    · left; rw [hf]; exact ⟨rfl, n, rfl⟩
    · right
      simp only [a1, ok_bind]
      cases x with
      | error e => exact ⟨_, _, rfl, a2, a4, Nat.le_of_eq a3.symm, a6 e rfl⟩
      | ok l => exact ⟨_, _, rfl, a2, a4, Nat.le_of_eq a3.symm, a5 l rfl⟩
  | fillBuf =>
    right
    obtain ⟨x, r1, a1, a2⟩ := fillBuf_spec hg h
    simp only [step, a1, ok_bind]
    cases x with
    | error e => exact ⟨_, _, rfl, a2.inv, a2.grown, Nat.le_of_eq a2.size.symm, a2.index, (a2.error e rfl).2.1⟩
    | ok l =>
      obtain ⟨b1, b2, b3, _⟩ := a2.shown l rfl
      have hat := a2.inv.at
      have hth := a2.inv.there
      have hl := win_length a2.inv
      rw [← b1] at hat hl
      rw [a2.index] at hat hth
      refine ⟨_, _, rfl, a2.inv, a2.grown, Nat.le_of_eq a2.size.symm, hat, a2.index, ?_, ?_⟩
      · intro hne
        have : l.length ≠ 0 := fun h3 => hne (List.eq_nil_of_length_eq_zero h3)
        omega
      · rintro rfl
        have hw : win r = [] := List.prefix_nil.mp b2
        have := b3 hw.symm (by rw [hw]; exact hcap)
        rw [hw] at this
        exact this
  | consume k =>
    right
    simp only [step, data_ok h, ok_bind, pure_eq_ok]
    have hl := win_length h
    have hth := h.there
    obtain ⟨c1, c2, _⟩ := consume_inv h (k := ((win r).take k).length) (by rw [List.length_take]; omega)
    refine ⟨_, _, rfl, c1, Nat.le_refl _, Nat.le_refl _, h.at.take k, by rw [List.length_take]; omega, c2, ?_⟩
    intro hne
    have h5 : ((win r).take k).length ≠ 0 := fun h3 => hne (List.eq_nil_of_length_eq_zero h3)
    change r.index + ((win r).take k).length ≤ len r.inner
    rw [List.length_take] at h5 ⊢
    omega
  | grow k =>
    right
    exact ⟨_, _, rfl, (grow_inv h k).1, Nat.le_refl _, by simp [grow], rfl⟩
  | reset =>
    right
    obtain ⟨r1, a1, a2, _, _, a5, a6, a7, _⟩ := reset_inv h
    simp only [step, a1, ok_bind, pure_eq_ok]
    exact ⟨_, _, rfl, a2, by rw [a7]; exact Nat.le_refl _, Nat.le_of_eq a5.symm, a6⟩
  | seek sf =>
    right
    obtain ⟨x, r1, a1, a2⟩ := seek_spec hg h sf
    have hgoal : ∀ t, goal pos r sf t = aim r.index t sf ∨ ∃ d < 0, sf = .current d := by
      intro t
      cases sf with
      | start n => exact .inl rfl
      | «end» d => exact .inl rfl
      | current d =>
        by_cases hd : 0 ≤ d
        · left; simp [goal, aim, hd]
        · exact .inr ⟨d, by omega, rfl⟩
    simp only [step, a1, ok_bind]
    cases x with
    | error e =>
      obtain ⟨b1, b2⟩ := a2.error e rfl
      refine ⟨_, _, rfl, a2.inv, a2.grown, Nat.le_of_eq a2.size.symm, b1, ?_⟩
      rcases b2 with b2 | ⟨t, b2, b3, b4⟩
      · exact .inl b2.1
      · right
        rcases b4 with b4 | b4
        · exact .inl (back_current b4)
        rcases hgoal t with hh | hh
        · exact .inr ⟨t, b2, b3, by rw [b4, hh]⟩
        · exact .inl hh
    | ok m =>
      obtain ⟨b1, t, b2, b3, b4⟩ := a2.ok m rfl
      refine ⟨_, _, rfl, a2.inv, a2.grown, Nat.le_of_eq a2.size.symm, b1, ?_⟩
      rcases b4 with b4 | b4
      · exact .inl (back_current b4)
      rcases hgoal t with hh | hh
      · exact .inr ⟨t, b2, b3, by rw [b4, hh]⟩
      · exact .inl hh

theorem run_spec (hg : Grows dev dat pos len) (fuel : Nat) {r : LAcc R} (h : Inv dat pos len r)
    (hcap : 0 < r.buf.length) (ops : List Op) :
    (run dev fuel r ops = .error .fuel ∧ ∃ n, .readExact n ∈ ops) ∨
    ∃ os r', run dev fuel r ops = .ok (os, r') ∧ Inv dat pos len r' ∧ len r.inner ≤ len r'.inner ∧
      0 < r'.buf.length ∧ SeesAll dev.Fails dat (len r.inner) r.index ops os (len r'.inner) r'.index := by
  induction ops generalizing r with
  | nil => exact .inr ⟨_, _, rfl, h, Nat.le_refl _, hcap, rfl, rfl⟩
  | cons op ops ih =>
    simp only [run]
    rcases step_spec hg fuel h hcap op with ⟨h1, n, rfl⟩ | ⟨o, r1, a1, a2, a3, a4, a5⟩
    · left; rw [h1]; exact ⟨rfl, n, List.mem_cons_self ..⟩
    · simp only [a1, ok_bind]
      rcases ih a2 (by omega) with ⟨h1, n, hn⟩ | ⟨os, r2, b1, b2, b3, b4, b5⟩
      · left; rw [h1]; exact ⟨rfl, n, List.mem_cons_of_mem _ hn⟩
      · right
        simp only [b1, ok_bind, pure_eq_ok]
        exact ⟨_, _, rfl, b2, by omega, b4, _, _, a3, a5, b5⟩

/-- The logical position: what a seek by 0 reports, without a call of the inner reader. -/
def Stands (dev : Dev R) (r : LAcc R) (p : Nat) : Prop := seek dev r (.current 0) = .ok (.ok p, r)

theorem Inv.stands {r : LAcc R} (h : Inv dat pos len r) : Stands dev r r.index := by
  unfold Stands seek
  simp only [usub_ok h.pe, ok_bind]
  simp

/-- **C133.** Over any reader of a stream that grows, no history of calls panics; every byte delivered or shown is the one
at the position, which moves by what was delivered and to where seeks lead; `Ok(0)` and an empty buffer are returned only
if the stream had no byte behind the position when the call began, and errors are those of the reader. -/
theorem c133_live (hg : Grows dev dat pos len) (s : R) (h0 : pos s = 0) (cap : Nat) (hcap : 0 < cap) (fuel : Nat)
    (ops : List Op) :
    (run dev fuel (withCapacity cap s) ops = .error .fuel ∧ ∃ n, .readExact n ∈ ops) ∨
    ∃ os r p, run dev fuel (withCapacity cap s) ops = .ok (os, r) ∧
      SeesAll dev.Fails dat (len s) 0 ops os (len r.inner) p ∧ Stands dev r p := by
  rcases run_spec hg fuel (withCapacity_inv (dat := dat) (len := len) cap s h0) (by simpa [withCapacity] using hcap) ops
    with h1 | ⟨os, r, a1, a2, _, _, a3⟩
  · exact .inl h1
  · exact .inr ⟨os, r, r.index, a1, a3, a2.stands⟩

/-- **C133.** The end of the stream is no state of the reader: after any history, if the stream has a byte behind the position
by now, the next `read` and the next `fill_buf` deliver it, unless the inner reader fails. -/
theorem c133_resumes (hg : Grows dev dat pos len) (hh : dev.Healthy pos len) (s : R) (h0 : pos s = 0) (cap : Nat)
    (hcap : 0 < cap) (fuel : Nat) (ops : List Op) (os : List Out) (r : LAcc R)
    (hr : run dev fuel (withCapacity cap s) ops = .ok (os, r)) (p : Nat) (hp : Stands dev r p)
    (hmore : p < len r.inner) (n : Nat) (hn : 0 < n) :
    (∃ b l r', read dev r n = .ok (.ok (b :: l), r') ∧ At dat p (b :: l) ∧ Stands dev r' (p + l.length + 1)) ∧
    ∃ b l r', fillBuf dev r = .ok (.ok (b :: l), r') ∧ At dat p (b :: l) ∧ Stands dev r' p := by
  rcases run_spec hg fuel (withCapacity_inv (dat := dat) (len := len) cap s h0) (by simpa [withCapacity] using hcap) ops
    with ⟨h1, _⟩ | ⟨os', r', a1, a2, a3, a4, a5⟩
  · rw [hr] at h1; cases h1
  · rw [hr] at a1
    cases a1
    have hpi : p = r.index := by
      have := a2.stands (dev := dev)
      unfold Stands at this hp
      rw [hp] at this
      cases this; rfl
    subst hpi
    constructor
    · obtain ⟨x, r1, b1, b2⟩ := read_spec hg a2 n
      cases x with
      | error e =>
        obtain ⟨_, _, hf⟩ := b2.error e rfl
        -- a healthy reader does not fail a read
        exfalso
        have hcall : ∀ {x r2}, read dev r n = .ok (x, r2) → ∀ e, x ≠ .error e := by
          intro x r2 hx e he
          subst he
          unfold read at hx
          rw [usub_ok a2.pe] at hx
          simp only [ok_bind] at hx
          by_cases h1 : n < r.end - r.pos
          · rw [if_pos h1] at hx
            cases hs : sliceRange r.buf r.pos (r.pos + n) with
            | error q => rw [hs] at hx; cases hx
            | ok l => rw [hs] at hx; cases hx
          · rw [if_neg h1] at hx
            by_cases h2 : n > r.buf.length
            · rw [if_pos h2] at hx
              have hs : sliceRange r.buf r.pos r.end = .ok (win r) := data_ok a2
              rw [hs, usub_ok (show r.end - r.pos ≤ n by omega)] at hx
              simp only [ok_bind] at hx
              obtain ⟨l, hl⟩ := hh.read r.inner (n - (r.end - r.pos))
              cases hd : dev.read r.inner (n - (r.end - r.pos)) with
              | mk y s' =>
                rw [hd] at hl hx
                cases hl
                simp only at hx
                cases hq : resetBufferPosition (consume { r with inner := s' } (l.length + ((win r).take n).length)) with
                | error q => rw [hq] at hx; cases hx
                | ok r3 => rw [hq] at hx; cases hx
            · rw [if_neg h2] at hx
              obtain ⟨y, r3, c1, c2⟩ := fillBuf_spec hg a2
              rw [c1] at hx
              simp only [ok_bind] at hx
              cases y with
              | error e' =>
                obtain ⟨_, _, m, hm⟩ := c2.error e' rfl
                obtain ⟨l, hl⟩ := hh.read r.inner m
                rw [hm] at hl; cases hl
              | ok l => cases hx
        exact hcall b1 e rfl
      | ok l =>
        obtain ⟨c1, c2, c3, c4, c5⟩ := b2.ok l rfl
        cases l with
        | nil => have := c5 rfl; omega
        | cons b l =>
          refine ⟨b, l, r1, b1, c1, ?_⟩
          have := b2.inv.stands (dev := dev)
          rw [c3, List.length_cons, ← Nat.add_assoc] at this
          exact this
    · obtain ⟨x, r1, b1, b2⟩ := fillBuf_spec hg a2
      cases x with
      | error e =>
        obtain ⟨_, _, m, hm⟩ := b2.error e rfl
        obtain ⟨l, hl⟩ := hh.read r.inner m
        rw [hm] at hl; cases hl
      | ok l =>
        obtain ⟨c1, c2, c3, _⟩ := b2.shown l rfl
        cases l with
        | nil =>
          have hw : win r = [] := List.prefix_nil.mp c2
          have := c3 hw.symm (by rw [hw]; exact a4)
          rw [hw, List.length_nil] at this
          omega
        | cons b l =>
          have hat := b2.inv.at
          have hst := b2.inv.stands (dev := dev)
          rw [← c1, b2.index] at hat
          rw [b2.index] at hst
          exact ⟨b, l, r1, b1, hat, hst⟩

/-- **C133** No byte is returned or shown before the stream has it. -/
theorem sees_known {fails : IoErr → Prop} {n p n' p' : Nat} {op : Op} {o : Out} {l : List U8}
    (h : Sees fails dat n p op o n' p') (ho : o = .bytes l ∨ o = .shown l) (hl : l ≠ []) :
    At dat p l ∧ p + l.length ≤ n' := by
  rcases ho with rfl | rfl <;> cases op <;> simp only [Sees] at h
  · exact ⟨h.1, by have := h.2.2.2.1 hl; omega⟩
  · exact ⟨h.1, by have := h.2.2.2 hl; omega⟩
  · exact ⟨h.1, by have := h.2.2.2 hl; omega⟩
  · exact ⟨h.1, h.2.2.1 hl⟩

theorem delivered_spec {fails : IoErr → Prop} {n p n' p' : Nat} {ops : List Op} {os : List Out}
    (h : SeesAll fails dat n p ops os n' p') (hs : ∀ op ∈ ops, isSeek op = false ∧ ∀ k, op ≠ .readExact k) :
    At dat p (delivered os) ∧ p' = p + (delivered os).length := by
  induction ops generalizing n p os with
  | nil =>
    cases os with
    | nil => obtain ⟨_, rfl⟩ := h; exact ⟨by simp [At, delivered], by simp [delivered]⟩
    | cons o os => exact absurd h id
  | cons op ops ih =>
    cases os with
    | nil => exact absurd h id
    | cons o os =>
      obtain ⟨m, q, h1, h2, h3⟩ := h
      obtain ⟨g1, g2⟩ := ih h3 fun op hop => hs op (List.mem_cons_of_mem _ hop)
      obtain ⟨k1, k2⟩ := hs op (List.mem_cons_self ..)
      cases op with
      | seek sf => exact absurd k1 (by simp [isSeek])
      | readExact k => exact absurd rfl (k2 k)
      | read k =>
        cases o with
        | bytes l =>
          obtain ⟨e1, e2, rfl, _⟩ := h2
          exact ⟨e1.append g1, by simp only [delivered, List.length_append]; omega⟩
        | err e => obtain ⟨rfl, _⟩ := h2; exact ⟨g1, g2⟩
        | _ => exact absurd h2 id
      | fillBuf =>
        cases o with
        | shown l => obtain ⟨_, rfl, _⟩ := h2; exact ⟨g1, g2⟩
        | err e => obtain ⟨rfl, _⟩ := h2; exact ⟨g1, g2⟩
        | _ => exact absurd h2 id
      | consume k =>
        cases o with
        | bytes l =>
          obtain ⟨e1, e2, rfl, _⟩ := h2
          exact ⟨e1.append g1, by simp only [delivered, List.length_append]; omega⟩
        | _ => exact absurd h2 id
      | grow k =>
        cases o with
        | unit => cases h2; exact ⟨g1, g2⟩
        | _ => exact absurd h2 id
      | reset =>
        cases o with
        | unit => cases h2; exact ⟨g1, g2⟩
        | _ => exact absurd h2 id

/-- **C133.** Without seeks, all that reads deliver is, one behind the other, the beginning of the stream, whatever empty reads
and failures there were in between and whenever the bytes came. -/
theorem c133_concat (hg : Grows dev dat pos len) (s : R) (h0 : pos s = 0) (cap : Nat) (hcap : 0 < cap) (fuel : Nat)
    (ops : List Op) (hs : ∀ op ∈ ops, isSeek op = false ∧ ∀ k, op ≠ .readExact k) :
    ∃ os r, run dev fuel (withCapacity cap s) ops = .ok (os, r) ∧
      delivered os = dat.take (delivered os).length ∧ Stands dev r (delivered os).length := by
  rcases c133_live hg s h0 cap hcap fuel ops with ⟨_, n, hn⟩ | ⟨os, r, p, a1, a2, a3⟩
  · exact absurd rfl ((hs _ hn).2 n)
  · obtain ⟨g1, g2⟩ := delivered_spec a2 hs
    rw [Nat.zero_add] at g2
    exact ⟨os, r, a1, by simpa [At] using g1, g2 ▸ a3⟩

/-! ### files another process appends to -/

/-- A file of which `avail` bytes are there by now. -/
structure Feed where
  pos : Nat
  avail : Nat
  clock : Nat
  deriving DecidableEq, Repr

/-- `more k` bytes are appended during the `k`-th call; the calls fail and are short as `script` says. -/
def feedDev (dat : List U8) (script : Nat → Act) (more : Nat → Nat) : Dev Feed where
  read f n :=
    match (script f.clock).fail with
    | some e => (.error e, { f with avail := f.avail + more f.clock, clock := f.clock + 1 })
    | none =>
      let l := ((dat.take f.avail).drop f.pos).take (min n ((script f.clock).len + 1))
      (.ok l, ⟨f.pos + l.length, f.avail + more f.clock, f.clock + 1⟩)
  seek f sf :=
    match (script f.clock).fail with
    | some e => (.error e, { f with avail := f.avail + more f.clock, clock := f.clock + 1 })
    | none =>
      if aim f.pos (min f.avail dat.length) sf < 0 then
        (.error .invalidInput, { f with avail := f.avail + more f.clock, clock := f.clock + 1 })
      else (.ok (aim f.pos (min f.avail dat.length) sf).toNat,
        ⟨(aim f.pos (min f.avail dat.length) sf).toNat, f.avail + more f.clock, f.clock + 1⟩)

/-- Such files keep the contract, whatever the script and however they grow. -/
theorem feed_grows (dat : List U8) (script : Nat → Act) (more : Nat → Nat) :
    Grows (feedDev dat script more) dat (·.pos) (fun f => min f.avail dat.length) := by
  constructor
  · intro r; omega
  · intro r n
    simp only [feedDev]
    cases (script r.clock).fail <;> simp only <;> omega
  · intro r n l h
    simp only [feedDev] at h ⊢
    cases hs : (script r.clock).fail with
    | some e => rw [hs] at h; cases h
    | none =>
      rw [hs] at h
      simp only [Except.ok.injEq] at h
      simp only [h]
      have hl := congrArg List.length h
      simp only [List.length_take, List.length_drop] at hl
      refine ⟨?_, by omega, trivial, ?_, ?_⟩
      · unfold At
        rw [← h]
        rw [List.drop_take, List.take_take, List.length_take, List.take_eq_take_iff]
        omega
      · intro hne
        have : l.length ≠ 0 := fun h3 => hne (List.eq_nil_of_length_eq_zero h3)
        omega
      · rintro rfl
        simp only [List.length_nil] at hl
        omega
  · intro r n e h
    simp only [feedDev] at h ⊢
    cases hs : (script r.clock).fail with
    | some e' => rfl
    | none => rw [hs] at h; cases h
  · intro r sf
    simp only [feedDev]
    cases (script r.clock).fail with
    | some e => simp only; omega
    | none =>
      simp only
      by_cases h0 : aim r.pos (min r.avail dat.length) sf < 0
      · rw [if_pos h0]; simp only; omega
      · rw [if_neg h0]; simp only; omega
  · intro r sf m h
    simp only [feedDev] at h ⊢
    cases hs : (script r.clock).fail with
    | some e => rw [hs] at h; cases h
    | none =>
      rw [hs] at h
      simp only at h ⊢
      by_cases h0 : aim r.pos (min r.avail dat.length) sf < 0
      · rw [if_pos h0] at h; cases h
      · rw [if_neg h0] at h ⊢
        simp only [Except.ok.injEq] at h
        refine ⟨h, min r.avail dat.length, Nat.le_refl _, by simp only; omega, by omega⟩
  · intro r sf e h
    simp only [feedDev] at h ⊢
    cases hs : (script r.clock).fail with
    | some e' => rfl
    | none =>
      rw [hs] at h
      simp only at h ⊢
      by_cases h0 : aim r.pos (min r.avail dat.length) sf < 0
      · rw [if_pos h0]
      · rw [if_neg h0] at h; cases h

theorem feed_healthy (dat : List U8) (script : Nat → Act) (more : Nat → Nat) (hs : ∀ k, (script k).fail = none) :
    (feedDev dat script more).Healthy (·.pos) (fun f => min f.avail dat.length) := by
  constructor
  · intro r n; simp only [feedDev, hs]; exact ⟨_, rfl⟩
  · intro r sf h
    have := h _ (Nat.le_refl _)
    simp only [feedDev, hs]
    rw [if_neg (by omega)]
    exact ⟨_, rfl⟩

/-- Scripted sources keep the contract: they are the streams that do not grow. -/
theorem source_grows (s : Source) : Grows (R := {t : Source // t.data = s.data})
    ⟨fun t n => (t.1.read n |>.1, ⟨(t.1.read n).2, (Source.read_spec t.1 n).data.trans t.2⟩),
      fun t sf => (t.1.seek sf |>.1, ⟨(t.1.seek sf).2, (source_seek t.1 sf).1.trans t.2⟩)⟩
    s.data (fun t => t.1.pos) (fun _ => s.data.length) := by
  constructor
  · intro _; exact Nat.le_refl _
  · intro _ _; exact Nat.le_refl _
  · intro t n l h
    have hs := Source.read_spec t.1 n
    obtain ⟨h1, h2, h3, h4⟩ := hs.ok l h
    rw [t.2] at h1 h4
    refine ⟨h1, h2, h3, ?_, h4⟩
    intro hne
    have h5 := congrArg List.length h1
    rw [List.length_take, List.length_drop] at h5
    have : l.length ≠ 0 := fun h3 => hne (List.eq_nil_of_length_eq_zero h3)
    omega
  · intro t n e h; exact ((Source.read_spec t.1 n).error e h).1
  · intro _ _; exact Nat.le_refl _
  · intro t sf m h
    obtain ⟨h1, h2⟩ := (source_seek t.1 sf).2.2.2.1 m h
    refine ⟨h2, s.data.length, Nat.le_refl _, Nat.le_refl _, .inr ?_⟩
    rw [h1]
    cases sf <;> simp only [Source.target, aim, t.2]
  · intro t sf e h; exact ((source_seek t.1 sf).2.2.2.2.1 e h).1

/-- A file that has one byte at first and gets two more at every third call, read in pieces: empty reads in between. -/
example : ∃ r, run (feedDev [1, 2, 3, 4, 5, 6] (fun _ => ⟨none, 9⟩) fun k => if k % 3 = 2 then 2 else 0) 9
    (withCapacity 4 ⟨0, 1, 0⟩) [.read 3, .read 3, .fillBuf, .read 3, .seek (.end (-1)), .read 5, .read 9] =
    .ok ([.bytes [1], .bytes [], .shown [], .bytes [2, 3], .pos 2, .bytes [3, 4, 5], .bytes []], r) ∧
    r.inner.pos = 5 := ⟨_, rfl, rfl⟩

/-- The same file after an empty read and an empty `fill_buf`: two bytes have come, and the next `read` delivers. -/
example : ∃ b l r', read (feedDev [1, 2, 3, 4, 5, 6] (fun _ => ⟨none, 9⟩) fun k => if k % 3 = 2 then 2 else 0)
    ⟨⟨1, 3, 3⟩, [1, 0, 0, 0], 0, 0, 1⟩ 3 = .ok (.ok (b :: l), r') ∧ At [1, 2, 3, 4, 5, 6] 1 (b :: l) := by
  obtain ⟨⟨b, l, r', h1, h2, _⟩, _⟩ := c133_resumes (feed_grows [1, 2, 3, 4, 5, 6] (fun _ => ⟨none, 9⟩)
      fun k => if k % 3 = 2 then 2 else 0) (feed_healthy _ _ _ fun _ => rfl) ⟨0, 1, 0⟩ rfl 4 (by decide) 9
    [.read 3, .read 3, .fillBuf] _ ⟨⟨1, 3, 3⟩, [1, 0, 0, 0], 0, 0, 1⟩ rfl 1 rfl (by decide) 3 (by decide)
  exact ⟨b, l, r', h1, h2⟩

end Verif.Live
