import Verif.Codebook.Overlap

/-!
# Property C82: exactly when `Codebook::new` panics

`c82_shift_exact_partial` decides for every description whether construction ends with a shift overflow;
`c82_short_exact_partial` decides every outcome for descriptions of codes of at most ten bits, whatever bits
the codes have above their lengths. `Verif.Codebook.Beyond` decides the others in MSB mode,
`Verif.Codebook.Plan` those of at most 20 bits in LSB mode.
-/

namespace Verif.Codebook
open Verif Verif.BitRead

/-! ### Shift overflows -/

/-- Does not end with a shift overflow. -/
def NoShift (x : Rust α) : Prop := x ≠ .error .shift

theorem NoShift.bind {x : Rust α} {f : α → Rust β} (h : NoShift x) (hf : ∀ a, x = .ok a → NoShift (f a)) :
    NoShift (x >>= f) := by
  cases x with
  | ok a => exact hf a rfl
  | error p => exact fun h' => h (by cases h'; rfl)

theorem NoShift.ok (a : α) : NoShift (.ok a : Rust α) := by intro h; cases h

theorem foldNoShift {f : β → α → Rust β} (P : β → Prop) (l : List α)
    (h : ∀ b a, a ∈ l → P b → NoShift (f b a) ∧ ∀ b', f b a = .ok b' → P b') (b : β) (hb : P b) :
    NoShift (l.foldlM f b) ∧ ∀ b', l.foldlM f b = .ok b' → P b' := by
  induction l generalizing b with
  | nil => exact ⟨NoShift.ok b, fun b' hb' => by cases hb'; exact hb⟩
  | cons a l ih =>
    obtain ⟨h1, h2⟩ := h b a (by simp) hb
    rw [List.foldlM_cons]
    cases hx : f b a with
    | error p => exact ⟨fun h' => h1 (by rw [hx]; cases h'; rfl), fun b' hb' => by cases hb'⟩
    | ok b1 => exact ih (fun b a ha => h b a (by simp [ha])) b1 (h2 b1 hx)

theorem usub_noShift (a b : Nat) : NoShift (usub a b) := by
  unfold usub; split <;> (intro h; cases h)

theorem shl32_noShift {n : Nat} (x : Nat) (h : n < 32) : NoShift (shl32 x n) := by
  unfold shl32; rw [if_pos h]; exact NoShift.ok _

theorem shr32_noShift {n : Nat} (x : Nat) (h : n < 32) : NoShift (shr32 x n) := by
  unfold shr32; rw [if_pos h]; exact NoShift.ok _

theorem add32_noShift (x y : Nat) : NoShift (add32 x y) := by
  unfold add32; split <;> (intro h; cases h)

theorem setIdx_noShift (l : List Nat) (i v : Nat) : NoShift (setIdx l i v) := by
  unfold setIdx; split <;> (intro h; cases h)

theorem idx_noShift (l : List Nat) (i : Nat) : NoShift (idx l i) := by
  unfold idx; split <;> (intro h; cases h)

theorem usub_eq {a b c : Nat} (h : usub a b = .ok c) : b ≤ a ∧ c = a - b := by
  unfold usub at h
  split at h
  · cases h; exact ⟨by assumption, rfl⟩
  · cases h

theorem fillLut_noShift (m : Mode) (t : List Nat) (off code bits w s : Nat) (esc : Bool) (hw : w ≤ 10) :
    NoShift (fillLut m t off code bits w s esc) := by
  cases m <;> simp only [fillLut, fillLutMsb, fillLutLsb] <;> split
  · refine (usub_noShift _ _).bind fun fl hfl => ?_
    obtain ⟨_, rfl⟩ := usub_eq hfl
    refine (shl32_noShift _ (by omega)).bind fun fs _ => (shl32_noShift _ (by omega)).bind fun fc _ => ?_
    exact (foldNoShift (fun _ => True) _ (fun b a _ _ =>
      ⟨(add32_noShift _ _).bind fun _ _ => setIdx_noShift _ _ _, fun _ _ => trivial⟩) t trivial).1
  · exact setIdx_noShift _ _ _
  · refine (usub_noShift _ _).bind fun fl hfl => ?_
    obtain ⟨_, rfl⟩ := usub_eq hfl
    refine (shl32_noShift _ (by omega)).bind fun fs _ => (usub_noShift _ _).bind fun st hst => ?_
    obtain ⟨_, rfl⟩ := usub_eq hst
    exact (foldNoShift (fun _ => True) _ (fun b a _ _ =>
      ⟨(shl32_noShift _ (by omega)).bind fun _ _ => (add32_noShift _ _).bind fun _ _ => setIdx_noShift _ _ _,
        fun _ _ => trivial⟩) t trivial).1
  · exact setIdx_noShift _ _ _

theorem allocBucket_noShift (m : Mode) (t : List Nat) (off key : Nat) (b : CodeBucket) :
    NoShift (allocBucket m t off key b) ∧
      ∀ t' b', allocBucket m t off key b = .ok (t', b') → b'.codes = b.codes := by
  have h1 : resizeTable t (min b.maxlen MAX_LUT_BITS) =
      .ok (t ++ List.replicate ((1 <<< min b.maxlen MAX_LUT_BITS) % 2 ^ 32) FILL, t.length % 2 ^ 32) := by
    unfold resizeTable shl32
    rw [if_pos (by unfold MAX_LUT_BITS; omega)]
    rfl
  unfold allocBucket
  simp only [h1, ok_bind]
  constructor
  · exact (fillLut_noShift _ _ _ _ _ _ _ _ (by decide)).bind fun _ _ => NoShift.ok _
  · intro t' b' h
    generalize hx : fillLut m _ off key _ _ _ true = x at h
    cases x with
    | error p => cases h
    | ok t1 => cases h; rfl

/-- All codes of a map are short enough for the mode. -/
def EscOK (m : Mode) (M : EscapeCodes) : Prop := ∀ kb ∈ M, ∀ c ∈ kb.2.codes, c.bits ≤ maxLen m

theorem addEscCode_ok {m : Mode} {M : EscapeCodes} (h : EscOK m M) (key code : Nat) {bits : Nat}
    (hb : bits ≤ maxLen m) (i : Nat) : EscOK m (addEscCode M key code bits i) := by
  induction M with
  | nil =>
    intro kb hkb c hc
    simp only [addEscCode, List.mem_singleton] at hkb
    subst hkb
    simp only [CodeBucket.addCode, CodeBucket.new, List.nil_append, List.mem_singleton] at hc
    subst hc
    exact hb
  | cons kb0 M ih =>
    obtain ⟨k0, b0⟩ := kb0
    unfold addEscCode
    intro kb hkb c hc
    split at hkb
    · rcases List.mem_cons.mp hkb with rfl | hkb
      · simp only [CodeBucket.addCode, List.mem_append, List.mem_singleton] at hc
        rcases hc with hc | rfl
        · exact h (k0, b0) (by simp) c hc
        · exact hb
      · exact h kb (by simp [hkb]) c hc
    · rcases List.mem_cons.mp hkb with rfl | hkb
      · exact h (k0, b0) (by simp) c hc
      · exact ih (fun kb' h' => h kb' (by simp [h'])) kb hkb c hc

theorem put_ok {m : Mode} {M : EscapeCodes} (h : EscOK m M) (key : Nat) {b : CodeBucket}
    (hb : ∀ c ∈ b.codes, c.bits ≤ maxLen m) : EscOK m (M.put key b) := by
  induction M with
  | nil => exact h
  | cons kb0 M ih =>
    obtain ⟨k0, b0⟩ := kb0
    unfold EscapeCodes.put
    intro kb hkb c hc
    split at hkb
    · rcases List.mem_cons.mp hkb with rfl | hkb
      · exact hb c hc
      · exact h kb (by simp [hkb]) c hc
    · rcases List.mem_cons.mp hkb with rfl | hkb
      · exact h (k0, b0) (by simp) c hc
      · exact ih (fun kb' h' => h kb' (by simp [h'])) kb hkb c hc

theorem get_ok {m : Mode} {M : EscapeCodes} (h : EscOK m M) {key : Nat} {b : CodeBucket}
    (hb : M.get key = some b) : ∀ c ∈ b.codes, c.bits ≤ maxLen m := by
  induction M with
  | nil => cases hb
  | cons kb0 M ih =>
    obtain ⟨k0, b0⟩ := kb0
    unfold EscapeCodes.get at hb
    split at hb
    · cases hb; exact h (k0, b) (by simp)
    · exact ih (fun kb' h' => h kb' (by simp [h'])) hb

theorem extractLut_noShift {m : Mode} {bits : Nat} (code : Nat) (h : bits ≤ maxLen m) :
    NoShift (extractLutPart code bits MAX_LUT_BITS m) := by
  cases m <;> simp only [extractLutPart, MAX_LUT_BITS]
  · refine (usub_noShift _ _).bind fun n hn => ?_
    obtain ⟨_, rfl⟩ := usub_eq hn
    simp only [maxLen] at h
    exact shr32_noShift _ (by omega)
  · exact (shl32_noShift _ (by decide)).bind fun _ _ => NoShift.ok _

theorem extractEsc_noShift {m : Mode} {bits : Nat} (code : Nat) (h : bits ≤ maxLen m) :
    NoShift (extractEscPart code bits MAX_LUT_BITS m) := by
  cases m <;> simp only [extractEscPart, MAX_LUT_BITS]
  · refine (usub_noShift _ _).bind fun n hn => ?_
    obtain ⟨_, rfl⟩ := usub_eq hn
    simp only [maxLen] at h
    exact (shl32_noShift _ (by omega)).bind fun _ _ => NoShift.ok _
  · exact shr32_noShift _ (by decide)

/-- The map with one more long code. -/
theorem addLong_noShift {m : Mode} {M : EscapeCodes} (hM : EscOK m M) (code : Nat) {bits : Nat}
    (h : bits ≤ maxLen m) (i : Nat) :
    let x := (do
      let ckey ← extractLutPart code bits MAX_LUT_BITS m
      let cval ← extractEscPart code bits MAX_LUT_BITS m
      return addEscCode M ckey cval (bits - MAX_LUT_BITS) i : Rust EscapeCodes)
    NoShift x ∧ ∀ M', x = .ok M' → EscOK m M' := by
  intro x
  constructor
  · exact (extractLut_noShift _ h).bind fun _ _ => (extractEsc_noShift _ h).bind fun _ _ => NoShift.ok _
  · intro M' hM'
    simp only [x] at hM'
    cases h1 : extractLutPart code bits MAX_LUT_BITS m with
    | error p => rw [h1] at hM'; cases hM'
    | ok k =>
      cases h2 : extractEscPart code bits MAX_LUT_BITS m with
      | error p => rw [h1, h2] at hM'; cases hM'
      | ok v =>
        rw [h1, h2] at hM'
        cases hM'
        exact addEscCode_ok hM _ _ (by omega) _

theorem escStep_noShift {m : Mode} (off w : Nat) (hw : w ≤ 10) (st : List Nat × EscapeCodes) (c : Code)
    (hc : c.bits ≤ maxLen m) (hM : EscOK m st.2) :
    NoShift (escStep m off w st c) ∧ ∀ st', escStep m off w st c = .ok st' → EscOK m st'.2 := by
  unfold escStep
  split
  · constructor
    · exact (fillLut_noShift _ _ _ _ _ _ _ _ hw).bind fun _ _ => NoShift.ok _
    · intro st' h
      generalize fillLut m _ _ _ _ _ _ _ = x at h
      cases x with
      | error p => cases h
      | ok t => cases h; exact hM
  · obtain ⟨h1, h2⟩ := addLong_noShift hM c.code hc c.idx
    cases e1 : extractLutPart c.code c.bits MAX_LUT_BITS m with
    | error p =>
      refine ⟨fun h => h1 ?_, fun st' h => by cases h⟩
      rw [e1]; cases h; rfl
    | ok k =>
      cases e2 : extractEscPart c.code c.bits MAX_LUT_BITS m with
      | error p =>
        refine ⟨fun h => h1 ?_, fun st' h => by cases h⟩
        rw [e1, e2]; cases h; rfl
      | ok v =>
        refine ⟨NoShift.ok _, fun st' h => ?_⟩
        cases h
        exact h2 _ (by rw [e1, e2]; rfl)

theorem allocStep_noShift {m : Mode} (off : Nat) (st : List Nat × EscapeCodes) (kb : Nat × CodeBucket)
    (hkb : ∀ c ∈ kb.2.codes, c.bits ≤ maxLen m) (hM : EscOK m st.2) :
    NoShift (allocStep m off st kb) ∧ ∀ st', allocStep m off st kb = .ok st' → EscOK m st'.2 := by
  obtain ⟨h1, h2⟩ := allocBucket_noShift m st.1 off kb.1 kb.2
  unfold allocStep
  refine ⟨h1.bind fun _ _ => NoShift.ok _, fun st' h => ?_⟩
  cases hx : allocBucket m st.1 off kb.1 kb.2 with
  | error p => rw [hx] at h; cases h
  | ok x =>
    obtain ⟨t, b⟩ := x
    rw [hx] at h
    cases h
    intro kb' hkb' c hc
    rcases List.mem_append.mp hkb' with h | h
    · exact hM kb' h c hc
    · simp only [List.mem_singleton] at h
      subst h
      exact hkb c (by rw [← h2 t b hx]; exact hc)

theorem EscOK.perm {m : Mode} {M M' : EscapeCodes} (h : EscOK m M) (hp : M'.Perm M) : EscOK m M' :=
  fun kb hkb => h kb (hp.mem_iff.mp hkb)

theorem buildEscLut_noShift {ord : Order} (hord : ord.Valid) {m : Mode} (fuel : Nat) (path : List Nat)
    (t : List Nat) (b : CodeBucket) (hb : ∀ c ∈ b.codes, c.bits ≤ maxLen m) :
    NoShift (buildEscLut ord m fuel path t b) := by
  induction fuel generalizing path t b with
  | zero => intro h; cases h
  | succ fuel ih =>
    unfold buildEscLut
    obtain ⟨a1, a2⟩ := foldNoShift (f := escStep m b.offset (min b.maxlen MAX_LUT_BITS)) (fun st => EscOK m st.2)
      b.codes (fun st c hc hst => escStep_noShift _ _ (by unfold MAX_LUT_BITS; omega) st c (hb c hc) hst) (t, [])
      (fun kb h => by cases h)
    refine a1.bind fun st1 h1 => ?_
    have o1 := (a2 st1 h1).perm (hord path 0 st1.2)
    obtain ⟨b1, b2⟩ := foldNoShift (f := allocStep m b.offset) (fun st => EscOK m st.2)
      (ord path 0 st1.2) (fun st kb hkb hst => allocStep_noShift _ st kb (o1 kb hkb) hst) (st1.1, [])
      (fun kb h => by cases h)
    refine b1.bind fun st2 h2 => ?_
    have o2 := (b2 st2 h2).perm (hord path 1 st2.2)
    exact (foldNoShift (fun _ => True) (ord path 1 st2.2)
      (fun t kb hkb _ => ⟨ih _ t kb.2 (o2 kb hkb), fun _ _ => trivial⟩) st2.1 trivial).1

theorem gatherStep_noShift {m : Mode} (g : Gather) (d : Desc S) (hd : d.bits ≤ maxLen m) (hg : EscOK m g.esc) :
    NoShift (gatherStep m g d) ∧ ∀ g', gatherStep m g d = .ok g' → EscOK m g'.esc := by
  unfold gatherStep
  split
  · obtain ⟨h1, h2⟩ := addLong_noShift hg d.code hd g.symidx
    refine ⟨h1.bind fun _ _ => NoShift.ok _, fun g' h => ?_⟩
    generalize hx : (do
      let ckey ← extractLutPart d.code d.bits MAX_LUT_BITS m
      let cval ← extractEscPart d.code d.bits MAX_LUT_BITS m
      return addEscCode g.esc ckey cval (d.bits - MAX_LUT_BITS) g.symidx : Rust EscapeCodes) = x at h h1 h2
    cases x with
    | error p => cases h
    | ok M => cases h; exact h2 M rfl
  · exact ⟨NoShift.ok _, fun g' h => by cases h; exact hg⟩

theorem fillStep_noShift {m : Mode} (w : Nat) (hw : w ≤ 10) (st : Fill) (d : Desc S) (hd : d.bits ≤ maxLen m)
    (hst : EscOK m st.esc) :
    NoShift (fillStep m w st d) ∧ ∀ st', fillStep m w st d = .ok st' → EscOK m st'.esc := by
  have key : ∀ x : Rust (List Nat × EscapeCodes), NoShift x → (∀ y, x = .ok y → EscOK m y.2) →
      NoShift (x >>= fun y => do
        let symidx ← add32 st.symidx 1
        return ({ table := y.1, esc := y.2, symidx } : Fill)) ∧
      ∀ st', (x >>= fun y => do
        let symidx ← add32 st.symidx 1
        return ({ table := y.1, esc := y.2, symidx } : Fill)) = .ok st' → EscOK m st'.esc := by
    intro x h1 h2
    refine ⟨h1.bind fun _ _ => (add32_noShift _ _).bind fun _ _ => NoShift.ok _, fun st' h => ?_⟩
    cases x with
    | error p => cases h
    | ok y =>
      rw [ok_bind] at h
      cases hs : add32 st.symidx 1 with
      | error p => rw [hs] at h; cases h
      | ok s => rw [hs] at h; cases h; exact h2 y rfl
  unfold fillStep
  split
  · exact ⟨NoShift.ok _, fun st' h => by cases h; exact hst⟩
  · split
    · refine key _ ((fillLut_noShift _ _ _ _ _ _ _ _ hw).bind fun _ _ => NoShift.ok _) ?_
      intro y hy
      generalize fillLut m _ _ _ _ _ _ _ = x at hy
      cases x with
      | error p => cases hy
      | ok t => cases hy; exact hst
    · refine key _ ?_ ?_
      · refine (extractLut_noShift _ hd).bind fun k _ => (idx_noShift _ _).bind fun ent _ => ?_
        split
        · split
          · exact (allocBucket_noShift _ _ _ _ _).1.bind fun _ _ => NoShift.ok _
          · exact NoShift.ok _
        · exact NoShift.ok _
      · intro y hy
        cases h1 : extractLutPart d.code d.bits MAX_LUT_BITS m with
        | error p => rw [h1] at hy; cases hy
        | ok k =>
          rw [h1, ok_bind] at hy
          cases h2 : idx st.table k with
          | error p => rw [h2] at hy; cases hy
          | ok ent =>
            rw [h2, ok_bind] at hy
            split at hy
            · split at hy
              · rename_i b hb
                cases h3 : allocBucket m st.table 0 k b with
                | error p => rw [h3] at hy; cases hy
                | ok z =>
                  obtain ⟨t, b'⟩ := z
                  rw [h3] at hy
                  cases hy
                  refine put_ok hst k ?_
                  rw [(allocBucket_noShift m st.table 0 k b).2 t b' h3]
                  exact get_ok hst hb
              · cases hy; exact hst
            · cases hy; exact hst

theorem new_noShift {ord : Order} (hord : ord.Valid) {m : Mode} {ds : List (Desc S)}
    (h : ∀ d ∈ ds, d.bits ≤ maxLen m) : NoShift (new ord m ds) := by
  unfold new
  obtain ⟨a1, a2⟩ := foldNoShift (f := gatherStep m) (fun g => EscOK m g.esc) ds
    (fun g d hd hg => gatherStep_noShift g d (h d hd) hg) { maxbits := 0, esc := [], symidx := 0 }
    (fun kb h => by cases h)
  refine a1.bind fun g hg => ?_
  have o1 := a2 g hg
  split
  · exact NoShift.ok _
  · generalize hw : (if g.maxbits > MAX_LUT_BITS then MAX_LUT_BITS else g.maxbits) = w
    have hw' : w ≤ 10 := by rw [← hw]; unfold MAX_LUT_BITS; split <;> omega
    dsimp only
    obtain ⟨b1, b2⟩ := foldNoShift (f := fillStep m w) (fun st => EscOK m st.esc) ds
      (fun st d hd hst => fillStep_noShift w hw' st d (h d hd) hst)
      { table := List.replicate (1 <<< w) FILL, esc := g.esc, symidx := 0 } o1
    refine b1.bind fun f hf => ?_
    have o2 := (b2 f hf).perm (hord [] 1 f.esc)
    refine NoShift.bind ?_ fun _ _ => NoShift.ok _
    exact (foldNoShift (fun _ => True) (ord [] 1 f.esc)
      (fun t kb hkb _ => ⟨buildEscLut_noShift hord _ _ t kb.2 (o2 kb hkb), fun _ _ => trivial⟩) f.table trivial).1

theorem gather_shift {ds : List (Desc S)} (h : ∃ d ∈ ds, 42 ≤ d.bits) (g : Gather) :
    ds.foldlM (gatherStep .msb) g = .error .shift := by
  induction ds generalizing g with
  | nil => obtain ⟨d, hd, _⟩ := h; cases hd
  | cons d ds ih =>
    rw [List.foldlM_cons]
    by_cases hd : 42 ≤ d.bits
    · have : gatherStep .msb g d = .error .shift := by
        unfold gatherStep
        rw [if_pos (by unfold MAX_LUT_BITS; omega)]
        have : extractLutPart d.code d.bits MAX_LUT_BITS .msb = .error .shift := by
          unfold extractLutPart
          rw [usub_ok (by unfold MAX_LUT_BITS; omega)]
          unfold MAX_LUT_BITS
          simp only [ok_bind, shr32]
          rw [if_neg (by omega)]
        rw [this]
        rfl
      rw [this]
      rfl
    · have h' : ∃ d ∈ ds, 42 ≤ d.bits := by
        obtain ⟨d', hd', hb⟩ := h
        rcases List.mem_cons.mp hd' with rfl | hd'
        · exact absurd hb hd
        · exact ⟨d', hd', hb⟩
      have : ∃ g', gatherStep .msb g d = .ok g' := by
        unfold gatherStep
        split
        · have e1 : extractLutPart d.code d.bits MAX_LUT_BITS .msb = .ok (d.code >>> (d.bits - 10)) := by
            unfold extractLutPart MAX_LUT_BITS
            rw [usub_ok (by unfold MAX_LUT_BITS at *; omega)]
            simp only [ok_bind, shr32]
            rw [if_pos (by omega)]
          have e2 : ∃ v, extractEscPart d.code d.bits MAX_LUT_BITS .msb = .ok v := by
            unfold extractEscPart MAX_LUT_BITS
            rw [usub_ok (by unfold MAX_LUT_BITS at *; omega)]
            simp only [ok_bind, shl32]
            rw [if_pos (by omega)]
            exact ⟨_, rfl⟩
          obtain ⟨v, e2⟩ := e2
          rw [e1, e2]
          exact ⟨_, rfl⟩
        · exact ⟨_, rfl⟩
      obtain ⟨g', hg'⟩ := this
      rw [hg']
      exact ih h' g'

/-- **C82, partial (exact)** `Codebook::new` ends with a shift overflow exactly for MSB descriptions with
an entry of 42 bits or more: whatever the codes are and in whatever order the hash maps are iterated. -/
theorem c82_shift_exact_partial (ord : Order) (hord : ord.Valid) (m : Mode) (ds : List (Desc S))
    (h8 : ∀ d ∈ ds, d.bits < 2 ^ 8) :
    new ord m ds = .error .shift ↔ m = .msb ∧ ∃ d ∈ ds, 42 ≤ d.bits := by
  constructor
  · intro h
    apply Classical.byContradiction
    intro hn
    refine new_noShift hord (m := m) (ds := ds) ?_ h
    intro d hd
    have := h8 d hd
    cases m with
    | msb =>
      simp only [maxLen]
      apply Classical.byContradiction
      intro hb
      exact hn ⟨rfl, d, hd, by omega⟩
    | lsb => simp only [maxLen]; omega
  · rintro ⟨rfl, h⟩
    unfold new
    rw [gather_shift h]
    rfl

/-- 41 bits in MSB mode and 255 bits in LSB mode are fine, 42 in MSB mode are not. -/
example : insOrder.Valid ∧ (∀ d ∈ [(⟨7, 41, 0⟩ : Desc Nat)], d.bits < 2 ^ 8) ∧
    (∀ d ∈ [(⟨7, 255, 0⟩ : Desc Nat)], d.bits < 2 ^ 8) ∧
    new insOrder .msb [(⟨7, 41, 0⟩ : Desc Nat)] ≠ .error .shift ∧
    new insOrder .lsb [(⟨7, 255, 0⟩ : Desc Nat)] ≠ .error .shift ∧
    new insOrder .msb [(⟨7, 3, 0⟩ : Desc Nat), ⟨7, 42, 0⟩] = .error .shift :=
  ⟨insOrder_valid, by decide, by decide,
    fun h => by
      obtain ⟨_, d, h1, h2⟩ := (c82_shift_exact_partial _ insOrder_valid _ _ (by decide)).mp h
      simp only [List.mem_singleton] at h1
      rw [h1] at h2
      exact absurd h2 (by decide),
    (fun h => by
      have := ((c82_shift_exact_partial insOrder insOrder_valid .lsb [(⟨7, 255, 0⟩ : Desc Nat)] (by decide)).mp h).1
      cases this),
    (c82_shift_exact_partial insOrder insOrder_valid .msb [(⟨7, 3, 0⟩ : Desc Nat), ⟨7, 42, 0⟩] (by decide)).mpr
      ⟨rfl, ⟨7, 42, 0⟩, by simp, by decide⟩⟩

/-! ### Short codes with bits above their lengths -/

/-- What the construction uses of a code in a book of codes of at most `w` bits: in MSB mode the code is
moved to the top of `w` bits within a `u32`, so the bits moved out of it do not count. -/
def kept (m : Mode) (w : Nat) (d : Desc S) : Nat :=
  match m with
  | .msb => d.code % 2 ^ (32 - (w - d.bits))
  | .lsb => d.code

/-- The entry with the code used. -/
def trim (m : Mode) (w : Nat) (d : Desc S) : Desc S := { d with code := kept m w d }

theorem shl32_mod {code fl : Nat} (h : fl < 32) : shl32 (code % 2 ^ (32 - fl)) fl = shl32 code fl := by
  unfold shl32
  rw [if_pos h, if_pos h, Nat.shiftLeft_eq, Nat.shiftLeft_eq]
  congr 1
  have e : 2 ^ 32 = 2 ^ (32 - fl) * 2 ^ fl := by rw [← Nat.pow_add]; congr 1; omega
  rw [e, Nat.mul_mod_mul_right, Nat.mul_mod_mul_right, Nat.mod_mod]

theorem fillLut_kept (m : Mode) (t : List Nat) (off : Nat) (d : Desc S) (w s : Nat) (hb : d.bits ≤ w)
    (hw : w ≤ 10) :
    fillLut m t off (kept m w d) d.bits w s false = fillLut m t off d.code d.bits w s false := by
  cases m with
  | lsb => rfl
  | msb =>
    simp only [fillLut, fillLutMsb, Bool.not_false, if_true, usub_ok hb, ok_bind, kept]
    rw [shl32_mod (by omega)]

theorem foldlM_congr {f g : β → α → Rust β} (l : List α) (h : ∀ b a, a ∈ l → f b a = g b a) (b : β) :
    l.foldlM f b = l.foldlM g b := by
  induction l generalizing b with
  | nil => rfl
  | cons a l ih =>
    rw [List.foldlM_cons, List.foldlM_cons, h b a (by simp)]
    cases g b a with
    | error p => rfl
    | ok b' => exact ih (fun b a ha => h b a (by simp [ha])) b'

theorem foldlM_map' {f : β → α → Rust β} (k : γ → α) (l : List γ) (b : β) :
    (l.map k).foldlM f b = l.foldlM (fun b c => f b (k c)) b := by
  induction l generalizing b with
  | nil => rfl
  | cons a l ih =>
    rw [List.map_cons, List.foldlM_cons, List.foldlM_cons]
    cases f b (k a) with
    | error p => rfl
    | ok b' => exact ih b'

/-- The first loop on short codes. -/
theorem gather_short {m : Mode} {ds : List (Desc S)} (h : ∀ d ∈ ds, d.bits ≤ 10) (g : Gather) :
    ∃ mx n, ds.foldlM (gatherStep m) g = .ok ⟨mx, g.esc, n⟩ ∧ g.maxbits ≤ mx ∧ (∀ d ∈ ds, d.bits ≤ mx) ∧
      (mx = g.maxbits ∨ ∃ d ∈ ds, d.bits = mx) := by
  induction ds generalizing g with
  | nil => exact ⟨g.maxbits, g.symidx, rfl, Nat.le_refl _, by simp, .inl rfl⟩
  | cons d ds ih =>
    have hd := h d (by simp)
    obtain ⟨mx, n, a1, a2, a3, a4⟩ := ih (fun d h' => h d (by simp [h']))
      ⟨max d.bits g.maxbits, g.esc, if d.bits > 0 then g.symidx + 1 else g.symidx⟩
    simp only at a1 a2 a4
    refine ⟨mx, n, ?_, by omega, ?_, ?_⟩
    · rw [List.foldlM_cons]
      have : gatherStep m g d =
          .ok ⟨max d.bits g.maxbits, g.esc, if d.bits > 0 then g.symidx + 1 else g.symidx⟩ := by
        unfold gatherStep
        rw [if_neg (by unfold MAX_LUT_BITS; omega)]
        rfl
      rw [this]
      exact a1
    · intro d' hd'
      rcases List.mem_cons.mp hd' with rfl | hd'
      · omega
      · exact a3 d' hd'
    · rcases a4 with h' | ⟨d', h1, h2⟩
      · by_cases hc : d.bits ≤ g.maxbits
        · exact .inl (by omega)
        · exact .inr ⟨d, by simp, by omega⟩
      · exact .inr ⟨d', by simp [h1], h2⟩

theorem gather_width {m : Mode} {ds : List (Desc S)} {w : Nat} (h10 : w ≤ 10) (hw : ∀ d ∈ ds, d.bits ≤ w)
    (hex : ∃ d ∈ ds, d.bits = w) :
    ∃ n, ds.foldlM (gatherStep m) { maxbits := 0, esc := [], symidx := 0 } = .ok ⟨w, [], n⟩ := by
  obtain ⟨mx, n, h1, h2, h3, h4⟩ := gather_short (m := m) (ds := ds)
    (fun d hd => by have := hw d hd; omega) { maxbits := 0, esc := [], symidx := 0 }
  obtain ⟨d, hd, hb⟩ := hex
  have hdm := h3 d hd
  have : mx = w := by
    rcases h4 with h4 | ⟨d', hd', hb'⟩
    · simp only at h4; omega
    · have := hw d' hd'; omega
  rw [← this]
  exact ⟨n, h1⟩

/-- `Codebook::new` on short codes is the second loop alone. -/
theorem new_short_eq {ord : Order} {m : Mode} {ds : List (Desc S)} {w : Nat} (h0 : 0 < w)
    (h10 : w ≤ 10) (hw : ∀ d ∈ ds, d.bits ≤ w) (hex : ∃ d ∈ ds, d.bits = w) (p : Panic)
    (h : ds.foldlM (fillStep m w) ⟨List.replicate (1 <<< w) FILL, [], 0⟩ = .error p) :
    new ord m ds = .error p := by
  obtain ⟨n, hg⟩ := gather_width (m := m) h10 hw hex
  unfold new
  rw [hg]
  simp only [ok_bind, show ¬ w = 0 by omega, if_false, show ¬ w > MAX_LUT_BITS by unfold MAX_LUT_BITS; omega]
  rw [h]
  rfl

theorem new_trim (ord : Order) {m : Mode} {ds : List (Desc S)} {w : Nat} (h10 : w ≤ 10)
    (hw : ∀ d ∈ ds, d.bits ≤ w) (hex : ∃ d ∈ ds, d.bits = w) :
    new ord m (ds.map (trim m w)) = new ord m ds := by
  obtain ⟨n, hg⟩ := gather_width (m := m) h10 hw hex
  have hg' : (ds.map (trim m w)).foldlM (gatherStep m) { maxbits := 0, esc := [], symidx := 0 } =
      .ok ⟨w, [], n⟩ := by
    rw [← hg, foldlM_map']
    refine foldlM_congr _ (fun g d hd => ?_) _
    have := hw d hd
    have h1 : ¬ d.bits > MAX_LUT_BITS := by unfold MAX_LUT_BITS; omega
    unfold gatherStep trim
    simp only [h1, if_false]
  have hf : ∀ st : Fill, (ds.map (trim m w)).foldlM (fillStep m w) st = ds.foldlM (fillStep m w) st := by
    intro st
    rw [foldlM_map']
    refine foldlM_congr _ (fun st d hd => ?_) _
    have := hw d hd
    unfold fillStep
    have hb : (trim m w d).bits = d.bits := rfl
    have hc : (trim m w d).code = kept m w d := rfl
    rw [hb, hc, if_pos (show d.bits ≤ MAX_LUT_BITS by unfold MAX_LUT_BITS; omega),
      if_pos (show d.bits ≤ MAX_LUT_BITS by unfold MAX_LUT_BITS; omega), fillLut_kept m _ _ d w _ this h10]
  unfold new
  rw [hg, hg']
  simp only [ok_bind]
  split
  · rfl
  · rename_i h0
    rw [show (if w > MAX_LUT_BITS then MAX_LUT_BITS else w) = w from
      if_neg (by unfold MAX_LUT_BITS; omega), hf]
    have : (ds.map (trim m w)).filter (fun d => decide (d.bits > 0)) =
        (ds.filter (fun d => decide (d.bits > 0))).map (trim m w) := by
      rw [List.filter_map]; rfl
    rw [this, List.map_map]
    rfl

/-- A loop all of whose rounds either succeed or panic with an index, one of them with an index. -/
theorem fold_index {f : List Nat → α → Rust (List Nat)} {n : Nat} (l : List α)
    (h : ∀ t a, a ∈ l → t.length = n → f t a = .error .index ∨ ∃ t', f t a = .ok t' ∧ t'.length = n)
    (hex : ∃ a ∈ l, ∀ t, t.length = n → f t a = .error .index) (t : List Nat) (ht : t.length = n) :
    l.foldlM f t = .error .index := by
  induction l generalizing t with
  | nil => obtain ⟨a, ha, _⟩ := hex; cases ha
  | cons a l ih =>
    rw [List.foldlM_cons]
    rcases h t a (by simp) ht with h1 | ⟨t', h1, h2⟩
    · rw [h1]; rfl
    · rw [h1]
      obtain ⟨a', ha', hf⟩ := hex
      rcases List.mem_cons.mp ha' with rfl | ha'
      · rw [hf t ht] at h1; cases h1
      · exact ih (fun t a ha => h t a (by simp [ha])) ⟨a', ha', hf⟩ t' h2

theorem setIdx_bad {l : List Nat} {i : Nat} (v : Nat) (h : l.length ≤ i) : setIdx l i v = .error .index := by
  unfold setIdx; rw [if_neg (by omega)]

theorem setIdx_good {l : List Nat} {i : Nat} (v : Nat) (h : i < l.length) :
    setIdx l i v = .ok (l.set i v) := by
  unfold setIdx; rw [if_pos h]

/-- A code with a bit above its length among those used leaves the table. -/
theorem fillLut_bad {m : Mode} {t : List Nat} {d : Desc S} {w s : Nat} (hb : d.bits ≤ w) (hw : w ≤ 10)
    (ht : t.length = 2 ^ w) (h32 : d.code < 2 ^ 32) (hk : 2 ^ d.bits ≤ kept m w d) :
    fillLut m t 0 d.code d.bits w s false = .error .index := by
  have hpow : 2 ^ w = 2 ^ d.bits * 2 ^ (w - d.bits) := by
    rw [← Nat.pow_add, show d.bits + (w - d.bits) = w by omega]
  have h1024 := pow_le_1024 hw
  have hpos := Nat.two_pow_pos (w - d.bits)
  have hposb := Nat.two_pow_pos d.bits
  have hle : 2 ^ (w - d.bits) ≤ 2 ^ w := Nat.pow_le_pow_right (by omega) (by omega)
  have hfs : shl32 1 (w - d.bits) = .ok (2 ^ (w - d.bits)) := by
    unfold shl32
    rw [if_pos (by omega), Nat.shiftLeft_eq, Nat.one_mul, Nat.mod_eq_of_lt (by omega)]
  have hmem : 0 ∈ List.range (2 ^ (w - d.bits)) := List.mem_range.mpr hpos
  rw [← fillLut_kept m t 0 d w s hb hw]
  cases m with
  | msb =>
    simp only [kept] at hk ⊢
    have hlt : d.code % 2 ^ (32 - (w - d.bits)) < 2 ^ (32 - (w - d.bits)) := Nat.mod_lt _ (Nat.two_pow_pos _)
    generalize d.code % 2 ^ (32 - (w - d.bits)) = k at *
    have e : 2 ^ 32 = 2 ^ (32 - (w - d.bits)) * 2 ^ (w - d.bits) := by rw [← Nat.pow_add]; congr 1; omega
    have hm1 : k * 2 ^ (w - d.bits) + 2 ^ (w - d.bits) ≤ 2 ^ 32 := by
      rw [e, ← Nat.succ_mul]
      exact Nat.mul_le_mul_right _ hlt
    have hm2 : 2 ^ w ≤ k * 2 ^ (w - d.bits) := by
      rw [hpow]; exact Nat.mul_le_mul_right _ hk
    have hfc : shl32 k (w - d.bits) = .ok (k * 2 ^ (w - d.bits)) := by
      unfold shl32
      rw [if_pos (by omega), Nat.shiftLeft_eq, Nat.mod_eq_of_lt (by omega)]
    simp only [fillLut, fillLutMsb, Bool.not_false, if_true, usub_ok hb, ok_bind, hfs, hfc]
    refine fold_index (n := 2 ^ w) _ ?_ ⟨0, hmem, ?_⟩ t ht
    · intro t' j hj ht'
      rw [List.mem_range] at hj
      rw [add32_ok (by omega), ok_bind]
      exact .inl (setIdx_bad _ (by omega))
    · intro t' ht'
      rw [add32_ok (by omega), ok_bind]
      exact setIdx_bad _ (by omega)
  | lsb =>
    simp only [kept] at hk ⊢
    have hst : usub w (w - d.bits) = .ok d.bits := by
      rw [usub_ok (by omega)]; congr 1; omega
    simp only [fillLut, fillLutLsb, Bool.not_false, if_true, usub_ok hb, ok_bind, hfs, hst]
    have hsh : ∀ j, j < 2 ^ (w - d.bits) → shl32 j d.bits = .ok (j * 2 ^ d.bits) ∧
        j * 2 ^ d.bits + 2 ^ d.bits ≤ 2 ^ w := by
      intro j hj
      have : j * 2 ^ d.bits + 2 ^ d.bits ≤ 2 ^ w := by
        rw [hpow, ← Nat.succ_mul, Nat.mul_comm]
        exact Nat.mul_le_mul_left _ hj
      refine ⟨?_, this⟩
      unfold shl32
      rw [if_pos (by omega), Nat.shiftLeft_eq, Nat.mod_eq_of_lt (by omega)]
    by_cases hc : d.code < 2 ^ w
    · refine fold_index (n := 2 ^ w) _ ?_ ⟨2 ^ (w - d.bits) - 1, List.mem_range.mpr (by omega), ?_⟩ t ht
      · intro t' j hj ht'
        obtain ⟨s1, s2⟩ := hsh j (List.mem_range.mp hj)
        rw [s1, ok_bind, add32_ok (by omega), ok_bind]
        by_cases hi : d.code + j * 2 ^ d.bits + 0 < t'.length
        · exact .inr ⟨_, setIdx_good _ hi, by rw [List.length_set, ht']⟩
        · exact .inl (setIdx_bad _ (by omega))
      · intro t' ht'
        obtain ⟨s1, s2⟩ := hsh (2 ^ (w - d.bits) - 1) (by omega)
        have hlast : (2 ^ (w - d.bits) - 1) * 2 ^ d.bits + 2 ^ d.bits = 2 ^ w := by
          rw [← Nat.succ_mul, Nat.succ_eq_add_one, Nat.sub_add_cancel hpos, hpow, Nat.mul_comm]
        rw [s1, ok_bind, add32_ok (by omega), ok_bind]
        exact setIdx_bad _ (by omega)
    · obtain ⟨k, hkk⟩ : ∃ k, 2 ^ (w - d.bits) = k + 1 := ⟨2 ^ (w - d.bits) - 1, by omega⟩
      rw [hkk, List.range_succ_eq_map, List.foldlM_cons]
      have : shl32 0 d.bits = .ok 0 := by
        unfold shl32; rw [if_pos (by omega)]; simp
      rw [this, ok_bind, add32_ok (by omega), ok_bind, setIdx_bad _ (by omega)]
      rfl

theorem fill_bad {m : Mode} {ds : List (Desc S)} {w : Nat} (h10 : w ≤ 10) (hw : ∀ d ∈ ds, d.bits ≤ w)
    (h32 : ∀ d ∈ ds, d.code < 2 ^ 32) (hbad : ∃ d ∈ used ds, 2 ^ d.bits ≤ kept m w d) (st : Fill)
    (ht : st.table.length = 2 ^ w) (hs : st.symidx + (used ds).length < 2 ^ 32) :
    ds.foldlM (fillStep m w) st = .error .index := by
  induction ds generalizing st with
  | nil => obtain ⟨d, hd, _⟩ := hbad; cases hd
  | cons d ds ih =>
    rw [List.foldlM_cons]
    have hdw := hw d (by simp)
    by_cases h0 : d.bits = 0
    · have hu : used (d :: ds) = used ds := by simp [used, h0]
      rw [hu] at hbad hs
      have : fillStep m w st d = .ok st := by unfold fillStep; rw [if_pos h0]
      rw [this]
      exact ih (fun d h => hw d (by simp [h])) (fun d h => h32 d (by simp [h])) hbad st ht hs
    · have hu : used (d :: ds) = d :: used ds := by unfold used; rw [List.filter_cons_of_pos (by simp; omega)]
      rw [hu] at hbad hs
      simp only [List.length_cons] at hs
      have h10' : d.bits ≤ MAX_LUT_BITS := by unfold MAX_LUT_BITS; omega
      by_cases hk : 2 ^ d.bits ≤ kept m w d
      · unfold fillStep
        rw [if_neg h0, if_pos h10', fillLut_bad hdw h10 ht (h32 d (by simp)) hk]
        rfl
      · obtain ⟨t', f1, f2, _⟩ := fillLut_leaf (m := m) (t := st.table) (off := 0) (s := st.symidx) hdw h10
          (by omega : kept m w d < 2 ^ d.bits) (by omega)
        rw [fillLut_kept m _ _ d w _ hdw h10] at f1
        have : fillStep m w st d = .ok ⟨t', st.esc, st.symidx + 1⟩ := by
          unfold fillStep
          rw [if_neg h0, if_pos h10', f1]
          simp only [ok_bind, pure_eq_ok, add32_ok (show st.symidx + 1 < 2 ^ 32 by omega)]
        rw [this]
        refine ih (fun d h => hw d (by simp [h])) (fun d h => h32 d (by simp [h])) ?_ _ (by simp only; omega)
          (by simp only; omega)
        obtain ⟨d', hd', hb'⟩ := hbad
        rcases List.mem_cons.mp hd' with rfl | hd'
        · exact absurd hb' hk
        · exact ⟨d', hd', hb'⟩

/-- **C82, partial (exact)** For descriptions of codes of at most ten bits, with any bits above the length
of a code: construction panics, with an index out of bounds, exactly if a code in use still has a bit above
its length among those the construction uses; otherwise it returns the same book as for the codes cut to
these bits, which `c82_total_partial`, C20 and C84 describe. -/
theorem c82_short_exact_partial (ord : Order) (hord : ord.Valid) (m : Mode) (ds : List (Desc S)) (w : Nat)
    (h0 : 0 < w) (h10 : w ≤ 10) (hw : ∀ d ∈ ds, d.bits ≤ w) (hex : ∃ d ∈ ds, d.bits = w)
    (h32 : ∀ d ∈ ds, d.code < 2 ^ 32) (hn : (used ds).length < 2 ^ 32) :
    ((∃ d ∈ used ds, 2 ^ d.bits ≤ kept m w d) → new ord m ds = .error .index) ∧
    ((∀ d ∈ used ds, kept m w d < 2 ^ d.bits) →
      WF m (ds.map (trim m w)) ∧ new ord m ds = new ord m (ds.map (trim m w)) ∧
      ∃ cb, new ord m ds = .ok (.ok cb)) := by
  refine ⟨fun hbad => ?_, fun hgood => ?_⟩
  · refine new_short_eq h0 h10 hw hex _ (fill_bad h10 hw h32 hbad _ ?_ ?_)
    · simp [Nat.shiftLeft_eq]
    · simpa using hn
  · have hu : used (ds.map (trim m w)) = (used ds).map (trim m w) := by
      unfold used
      rw [List.filter_map]; rfl
    have hml : 10 ≤ maxLen m := by cases m <;> decide
    have hwf : WF m (ds.map (trim m w)) := by
      intro d hd
      rw [hu] at hd
      obtain ⟨d', hd', rfl⟩ := List.mem_map.mp hd
      have := hw d' (List.mem_filter.mp hd').1
      exact ⟨by simp only [trim]; omega, hgood d' hd'⟩
    have heq := new_trim ord (m := m) h10 hw hex
    refine ⟨hwf, heq.symm, ?_⟩
    obtain ⟨res, h1, h2, _⟩ := c82_total_partial ord hord m (ds.map (trim m w)) hwf (by rw [hu]; simpa using hn)
    rw [heq] at h1
    cases res with
    | ok cb => exact ⟨cb, h1⟩
    | error err =>
      have he : err = .invalidCodebook := ((c19_invalid ord m ds).2.1 err h1).1
      have := h2.mp (by rw [he])
      rw [hu] at this
      obtain ⟨d, hd, hb⟩ := hex
      have hd' : d ∈ used ds := List.mem_filter.mpr ⟨hd, by simp; omega⟩
      rw [List.map_eq_nil_iff.mp this] at hd'
      cases hd'

/-- The top bit of the one-bit code is moved out of the `u32`: no panic. One bit lower it panics. In LSB
mode both panic. -/
example : (∀ d ∈ used [(⟨0x80000001, 1, 0⟩ : Desc Nat), ⟨1, 2, 1⟩], kept .msb 2 d < 2 ^ d.bits) ∧
    (∃ d ∈ used [(⟨0x40000001, 1, 0⟩ : Desc Nat), ⟨1, 2, 1⟩], 2 ^ d.bits ≤ kept .msb 2 d) ∧
    (∃ d ∈ used [(⟨0x80000001, 1, 0⟩ : Desc Nat), ⟨1, 2, 1⟩], 2 ^ d.bits ≤ kept .lsb 2 d) := by decide

end Verif.Codebook
