import Verif.Codebook.Levels

/-!
# C105: books with very many entries

A table entry keeps the number of the symbol in 24 bits. `Codebook::new` does not check that it fits.
-/

namespace Verif.Codebook
open Verif Verif.BitRead

/-- The number of the entry `read_cb` should decode to: the entry listed last among those whose codeword
comes next. -/
def lastIndex (e : Endian) (m : Mode) (ds : List (Desc S)) (buf : List U8) (p : Nat) : Option Nat :=
  ((List.range (used ds).length).reverse.find? fun i =>
    match (used ds)[i]? with
    | some d => decide (streamBits e buf p d.bits = codeBits m d.code d.bits)
    | none => false)

theorem leafVal_wrap (i b : Nat) : leafVal i b = leafVal (i % 2 ^ 24) b := by
  unfold leafVal
  have h : (i <<< 8) % 2 ^ 32 = ((i % 2 ^ 24) <<< 8) % 2 ^ 32 := by
    rw [Nat.shiftLeft_eq, Nat.shiftLeft_eq]
    omega
  rw [h]

theorem reverse_find?_map {α β : Type _} (l : List α) (f : α → β) (P : β → Bool) :
    (l.map f).reverse.find? P = (l.reverse.find? fun x => P (f x)).map f := by
  rw [← List.map_reverse, List.find?_map]
  rfl

/-- The codes are found where the entries are. -/
theorem hitOf_lastIndex {e : Endian} {m : Mode} {buf : List U8} {p w i : Nat} (ds : List (Desc S))
    (hi : ∀ d ∈ used ds, (top m w d.bits i = d.code ↔
      streamBits e buf p d.bits = codeBits m d.code d.bits)) :
    (hitOf m w i (codesFrom 0 ds)).map (·.idx) = lastIndex e m ds buf p ∧
      ∀ c, hitOf m w i (codesFrom 0 ds) = some c → ∃ d, (used ds)[c.idx]? = some d ∧ d.bits = c.bits := by
  have hz : (used ds).zipIdx = (List.range (used ds).length).attach.map fun j =>
      ((used ds)[j.1]'(List.mem_range.mp j.2), j.1) := by
    apply List.ext_getElem?
    intro k
    by_cases hk : k < (used ds).length
    · simp [hk]
    · simp [hk]
  have hc : codesFrom 0 ds = (List.range (used ds).length).attach.map fun j =>
      ⟨((used ds)[j.1]'(List.mem_range.mp j.2)).code, ((used ds)[j.1]'(List.mem_range.mp j.2)).bits, j.1⟩ := by
    rw [codesFrom_zipIdx, hz, List.map_map]
    rfl
  constructor
  · unfold hitOf lastIndex
    rw [hc, reverse_find?_map, Option.map_map]
    have e1 : (List.range (used ds).length).reverse =
        ((List.range (used ds).length).attach.map (·.1)).reverse := by
      rw [List.attach_map_subtype_val]
    rw [e1, reverse_find?_map]
    have e2 : ((fun x : Code => x.idx) ∘ fun j : { x // x ∈ List.range (used ds).length } =>
        (⟨((used ds)[j.1]'(List.mem_range.mp j.2)).code, ((used ds)[j.1]'(List.mem_range.mp j.2)).bits, j.1⟩ : Code)) =
        fun j => j.1 := rfl
    rw [e2]
    congr 1
    apply find?_congr
    intro j _
    have hj := List.mem_range.mp j.2
    rw [List.getElem?_eq_getElem hj]
    simp only [hi _ (List.getElem_mem hj)]
  · intro c hcc
    have := (hitOf_some hcc).1
    obtain ⟨_, d, h1, _, h3⟩ := mem_codesFrom this
    exact ⟨d, by simpa using h1, h3⟩

/-- **C105, partial** What a book of codes up to 10 bits decodes to, with up to `2^32 - 1` entries: if entry
`k` is the one listed last among those whose codeword comes next, the reader moves behind that codeword, and
the symbol is that of entry `k` modulo `2^24`.
Missing for C105: from `2^24` entries on it is another entry's symbol (`c105_fails`). -/
theorem c105_modulo_partial (ord : Order) (hord : ord.Valid) (m : Mode) (ds : List (Desc S)) (hwf : WF m ds)
    (hshort : ∀ d ∈ used ds, d.bits ≤ 10) (hn : (used ds).length < 2 ^ 32) (hne : used ds ≠ [])
    (buf : List U8) (pre : List Op) (hpre : within buf 0 pre)
    (hin : (specRun (endianOf m) buf 0 pre).2 + 10 + 64 ≤ 8 * buf.length)
    (h32 : 8 * buf.length < 2 ^ 32) (fuel : Nat) (hfu : 1 ≤ fuel) :
    ∃ cb r0 vs r r', new ord m ds = .ok (.ok cb) ∧ BitRead.new (endianOf m) buf = .ok r0 ∧
      run (endianOf m) r0 pre = .ok (vs, r) ∧
      match lastIndex (endianOf m) m ds buf (specRun (endianOf m) buf 0 pre).2 with
      | none => readCb (endianOf m) fuel cb r = .ok (.error .invalidCode, r)
      | some k => ∃ d d', (used ds)[k]? = some d ∧ (used ds)[k % 2 ^ 24]? = some d' ∧
          readCb (endianOf m) fuel cb r = .ok (.ok d'.sym, r') ∧
          StandsAt (endianOf m) buf r' ((specRun (endianOf m) buf 0 pre).2 + d.bits) := by
  obtain ⟨T, h1, -, h2⟩ := newShort (m := m) hwf hshort hn hne
  obtain ⟨r0, n1, n2, _, n3⟩ := new_spec (endianOf m) buf
  obtain ⟨r, a1, a2, a3⟩ := run_within n3 pre (by rw [n2]; exact hpre)
  rw [n2] at a1 a2 a3
  generalize (specRun (endianOf m) buf 0 pre).2 = p at *
  obtain ⟨fuel, rfl⟩ : ∃ k, fuel = k + 1 := ⟨fuel - 1, by omega⟩
  obtain ⟨v, v1, v2, v3⟩ := peek_top a3 (nb_le (codesFrom 0 ds))
  have hcell := h2 v.toNat v2
  obtain ⟨g1, g2⟩ := hitOf_lastIndex (e := endianOf m) (m := m) (buf := buf) (p := p)
      (w := nb (codesFrom 0 ds)) (i := v.toNat) ds (by
        intro d hd
        have hb := hshort d hd
        obtain ⟨j, hj, hjd⟩ := List.mem_iff_getElem.mp hd
        have hc := codesFrom_get (k := 0) (show (used ds)[j]? = some d by
          rw [← hjd]; exact List.getElem?_eq_getElem hj)
        have hbn := bits_le_nb hc hb
        simp only at hbn
        rw [v3 d.bits hbn (by rw [a2]; omega), streamBits_code (hwf d hd).2, a2])
  rw [← g1]
  cases hh : hitOf m (nb (codesFrom 0 ds)) v.toNat (codesFrom 0 ds) with
  | none =>
    rw [hh] at hcell
    refine ⟨_, r0, _, r, r, h1 ord hord, n1, a1, ?_⟩
    simp only [Option.map_none]
    simp only [readCb, readLoop_fill (fuel := fuel) (off := 0) v1 (by rw [Nat.zero_add]; exact hcell), ok_bind]
  | some c =>
    rw [hh] at hcell
    obtain ⟨d, d1, d2⟩ := g2 c hh
    have hb10 := hshort d (List.mem_of_getElem? d1)
    have hlt := (List.getElem?_eq_some_iff.mp d1).1
    have hmod : c.idx % 2 ^ 24 ≤ c.idx := Nat.mod_le _ _
    obtain ⟨r', s1, s2, s3⟩ := skip_within a3 (n := c.bits) (by rw [a2]; omega)
    refine ⟨_, r0, _, r, r', h1 ord hord, n1, a1, ?_⟩
    simp only [Option.map_some]
    have hav := a3.available
    refine ⟨d, (used ds)[c.idx % 2 ^ 24]'(by omega), d1, List.getElem?_eq_getElem (by omega), ?_, ?_⟩
    · have hleaf := readLoop_leaf (fuel := fuel) (off := 0) (c := ⟨c.code, c.bits, c.idx % 2 ^ 24⟩) v1
        (by rw [Nat.zero_add, hcell]; simp only [cellOf]; rw [leafVal_wrap]) (Nat.mod_lt _ (by decide))
        (by simp only; omega) hav (by rw [a2]; simp only; omega) s1
      simp only [readCb, hleaf, ok_bind]
      have : ((used ds).map (·.sym))[c.idx % 2 ^ 24]? = some ((used ds)[c.idx % 2 ^ 24]'(by omega)).sym := by
        simp [List.getElem?_eq_getElem (show c.idx % 2 ^ 24 < (used ds).length by omega)]
      rw [idx_some this]
      rfl
    · have := Synced.standsAt s3
      rwa [s2, a2, ← d2] at this

example : WF .msb shortAmbiguous ∧ (∀ d ∈ used shortAmbiguous, d.bits ≤ 10) ∧ used shortAmbiguous ≠ [] ∧
    lastIndex .be .msb shortAmbiguous (List.replicate 16 0) 0 = some 1 ∧
    lastIndex .be .msb shortAmbiguous (0x40 :: List.replicate 16 0) 0 = some 0 ∧
    lastIndex .be .msb shortAmbiguous (0x80 :: List.replicate 16 0) 0 = none := by decide

/-- `0` is given `n` times, always with symbol 1; `1` once, with symbol 2. -/
def crowded (n : Nat) : List (Desc Nat) := List.replicate n ⟨0, 1, 1⟩ ++ [⟨1, 1, 2⟩]

theorem used_crowded (n : Nat) : used (crowded n) = crowded n := by
  unfold used crowded
  rw [List.filter_append, List.filter_replicate]
  simp

theorem mem_crowded {n : Nat} {d : Desc Nat} (h : d ∈ crowded n) : d = ⟨0, 1, 1⟩ ∨ d = ⟨1, 1, 2⟩ := by
  unfold crowded at h
  rcases List.mem_append.mp h with h | h
  · exact .inl (List.eq_of_mem_replicate h)
  · exact .inr (by simpa using h)

theorem crowded_length (n : Nat) : (crowded n).length = n + 1 := by
  unfold crowded
  rw [List.length_append, List.length_replicate]
  rfl

theorem crowded_last (n : Nat) : (crowded n)[n]? = some ⟨1, 1, 2⟩ := by
  unfold crowded
  rw [List.getElem?_append_right (by rw [List.length_replicate]; exact Nat.le_refl _), List.length_replicate,
    Nat.sub_self]
  rfl

theorem crowded_first {n k : Nat} (h : k < n) : (crowded n)[k]? = some ⟨0, 1, 1⟩ := by
  unfold crowded
  rw [List.getElem?_append_left (by rw [List.length_replicate]; exact h), List.getElem?_replicate, if_pos h]

theorem crowded_WF (n : Nat) : WF .msb (crowded n) := by
  intro d hd
  rw [used_crowded] at hd
  rcases mem_crowded hd with rfl | rfl <;> decide

theorem crowded_lastIndex (n : Nat) :
    lastIndex .be .msb (crowded n) (0x80 :: List.replicate 16 0) 0 = some n := by
  unfold lastIndex
  rw [used_crowded, crowded_length, List.range_succ, List.reverse_append, List.reverse_singleton,
    List.singleton_append, List.find?_cons, crowded_last]
  simp only
  rw [show decide (streamBits .be (0x80 :: List.replicate 16 0) 0 1 = codeBits .msb 1 1) = true by decide]

/-- What the book decodes to, in front of `1`. -/
theorem crowded_reads (ord : Order) (hord : ord.Valid) (n : Nat) (hn : n + 1 < 2 ^ 32) :
    ∃ cb r r' d, new ord .msb (crowded n) = .ok (.ok cb) ∧
      BitRead.new .be (0x80 :: List.replicate 16 0) = .ok r ∧ (crowded n)[n % 2 ^ 24]? = some d ∧
      readCb .be 1 cb r = .ok (.ok d.sym, r') := by
  obtain ⟨cb, r0, vs, r, r', h1, h2, h3, h4⟩ := c105_modulo_partial ord hord .msb (crowded n) (crowded_WF n)
    (by
      intro d hd
      rw [used_crowded] at hd
      rcases mem_crowded hd with rfl | rfl <;> decide)
    (by rw [used_crowded, crowded_length]; exact hn)
    (by
      rw [used_crowded]
      intro h
      have := crowded_length n
      rw [h] at this
      simp at this)
    (0x80 :: List.replicate 16 0) [] (by decide) (by decide) (by decide) 1 (by decide)
  have e0 : (specRun (endianOf .msb) (0x80 :: List.replicate 16 0) 0 []).2 = 0 := rfl
  rw [e0] at h4
  rw [show endianOf .msb = Endian.be from rfl] at h2 h3 h4
  rw [crowded_lastIndex] at h4
  obtain ⟨d, d', _, g2, g3, _⟩ := h4
  rw [used_crowded] at g2
  have hr : r0 = r := by
    simp only [run, Except.ok.injEq, Prod.mk.injEq] at h3
    exact h3.2
  rw [← hr] at g3
  exact ⟨cb, r0, r', d', h1, h2, g2, g3⟩

/-- **C105 fails** With `2^24 + 1` entries, the only entry with the codeword `1` decodes to the symbol of the
first one. -/
theorem c105_fails (ord : Order) (hord : ord.Valid) : ∃ n, n = 2 ^ 24 ∧ WF .msb (crowded n) ∧
    lastIndex .be .msb (crowded n) (0x80 :: List.replicate 16 0) 0 = some n ∧
    (used (crowded n))[n]? = some ⟨1, 1, 2⟩ ∧
    ∃ cb r r', new ord .msb (crowded n) = .ok (.ok cb) ∧
      BitRead.new .be (0x80 :: List.replicate 16 0) = .ok r ∧ readCb .be 1 cb r = .ok (.ok 1, r') := by
  obtain ⟨n, hn⟩ : ∃ n, n = 2 ^ 24 := ⟨_, rfl⟩
  refine ⟨n, hn, crowded_WF n, crowded_lastIndex n, by rw [used_crowded]; exact crowded_last n, ?_⟩
  obtain ⟨cb, r, r', d, h1, h2, h3, h4⟩ := crowded_reads ord hord n (by omega)
  rw [crowded_first (by omega)] at h3
  cases h3
  exact ⟨cb, r, r', h1, h2, h4⟩

/-! ### every entry is a 32-bit word -/

/-- Entries as the `u32`s they are in Rust. -/
def Words (t : List Nat) : Prop := ∀ x ∈ t, x < 2 ^ 32

theorem leafVal_lt {s b : Nat} (hb : b ≤ 10) : leafVal s b < 2 ^ 32 :=
  Nat.or_lt_two_pow (Nat.mod_lt _ (by decide)) (by omega)

theorem escVal_lt {s b : Nat} (hb : b ≤ 10) : escVal s b < 2 ^ 32 :=
  Nat.or_lt_two_pow (Nat.or_lt_two_pow (Nat.mod_lt _ (by decide)) (by decide)) (by omega)

theorem setIdx_words {t t' : List Nat} {i v : Nat} (h : Words t) (hv : v < 2 ^ 32) (ht : setIdx t i v = .ok t') :
    Words t' := by
  unfold setIdx at ht
  split at ht
  · cases ht
    intro x hx
    rcases List.mem_or_eq_of_mem_set hx with hx | rfl
    · exact h x hx
    · exact hv
  · cases ht

theorem foldInv {f : β → α → Rust β} {P : β → Prop} : ∀ (l : List α) {b b' : β},
    (∀ x ∈ l, ∀ c c', P c → f c x = .ok c' → P c') → P b → l.foldlM f b = .ok b' → P b' := by
  intro l
  induction l with
  | nil => intro b b' _ hb h; cases h; exact hb
  | cons a l ih =>
    intro b b' hf hb h
    rw [List.foldlM_cons] at h
    obtain ⟨c, h1, h2⟩ := bind_inv h
    exact ih (fun x hx => hf x (by simp [hx])) (hf a (by simp) _ _ hb h1) h2

theorem fillLut_words {m : Mode} {t t' : List Nat} {off code bits w s : Nat} {esc : Bool} (hb : bits ≤ 10)
    (h : Words t) (ht : fillLut m t off code bits w s esc = .ok t') : Words t' := by
  cases m <;> cases esc
  · simp only [fillLut, fillLutMsb, Bool.not_false, if_true] at ht
    obtain ⟨_, _, ht⟩ := bind_inv ht
    obtain ⟨_, _, ht⟩ := bind_inv ht
    obtain ⟨_, _, ht⟩ := bind_inv ht
    refine foldInv _ ?_ h ht
    intro x _ c c' hc h1
    obtain ⟨_, _, h1⟩ := bind_inv h1
    exact setIdx_words hc (leafVal_lt hb) h1
  · exact setIdx_words h (escVal_lt hb) ht
  · simp only [fillLut, fillLutLsb, Bool.not_false, if_true] at ht
    obtain ⟨_, _, ht⟩ := bind_inv ht
    obtain ⟨_, _, ht⟩ := bind_inv ht
    obtain ⟨_, _, ht⟩ := bind_inv ht
    refine foldInv _ ?_ h ht
    intro x _ c c' hc h1
    obtain ⟨_, _, h1⟩ := bind_inv h1
    obtain ⟨_, _, h1⟩ := bind_inv h1
    exact setIdx_words hc (leafVal_lt hb) h1
  · exact setIdx_words h (escVal_lt hb) ht

theorem words_append {t u : List Nat} (h : Words t) (hu : Words u) : Words (t ++ u) := by
  intro x hx
  rcases List.mem_append.mp hx with hx | hx
  · exact h x hx
  · exact hu x hx

theorem words_fill (n : Nat) : Words (List.replicate n FILL) := by
  intro x hx
  rw [(List.mem_replicate.mp hx).2]
  decide

theorem allocBucket_words {m : Mode} {t : List Nat} {off key : Nat} {b : CodeBucket} {x : List Nat × CodeBucket}
    (h : Words t) (ht : allocBucket m t off key b = .ok x) : Words x.1 := by
  unfold allocBucket at ht
  obtain ⟨⟨t1, o⟩, h1, ht⟩ := bind_inv ht
  obtain ⟨t2, h2, ht⟩ := bind_inv ht
  cases ht
  unfold resizeTable at h1
  obtain ⟨k, _, h1⟩ := bind_inv h1
  cases h1
  exact fillLut_words (by unfold MAX_LUT_BITS; omega) (words_append h (words_fill k)) h2

theorem buildEscLut_words {ord : Order} {m : Mode} (fuel : Nat) : ∀ {path : List Nat} {t t' : List Nat} {b : CodeBucket},
    Words t → buildEscLut ord m fuel path t b = .ok t' → Words t' := by
  induction fuel with
  | zero => intro path t t' b _ h; cases h
  | succ fuel ih =>
    intro path t t' b hw h
    unfold buildEscLut at h
    obtain ⟨⟨t1, e1⟩, h1, h⟩ := bind_inv h
    obtain ⟨⟨t2, e2⟩, h2, h⟩ := bind_inv h
    have w1 : Words t1 := by
      refine foldInv (P := fun st : List Nat × EscapeCodes => Words st.1) _ ?_ hw h1
      intro c _ st st' hs hst
      unfold escStep at hst
      split at hst
      · next hle =>
        obtain ⟨t3, h3, hst⟩ := bind_inv hst
        cases hst
        exact fillLut_words hle hs h3
      · obtain ⟨_, _, hst⟩ := bind_inv hst
        obtain ⟨_, _, hst⟩ := bind_inv hst
        cases hst
        exact hs
    have w2 : Words t2 := by
      refine foldInv (P := fun st : List Nat × EscapeCodes => Words st.1) _ ?_ w1 h2
      intro c _ st st' hs hst
      unfold allocStep at hst
      obtain ⟨⟨t3, b3⟩, h3, hst⟩ := bind_inv hst
      cases hst
      exact allocBucket_words hs h3
    refine foldInv _ ?_ w2 h
    intro kb _ c c' hc h3
    exact ih hc h3

/-- **C105, the words** Whatever the description, every entry of the table is a 32-bit word, so that the number of
a symbol or of a table has 24 bits at most. -/
theorem c105_words_partial (ord : Order) (m : Mode) (ds : List (Desc S)) (cb : Codebook S)
    (h : new ord m ds = .ok (.ok cb)) : ∀ x ∈ cb.table, x < 2 ^ 32 ∧ x >>> 8 < 2 ^ 24 := by
  unfold new at h
  obtain ⟨g, _, h⟩ := bind_inv h
  split at h
  · cases h
  obtain ⟨f, h1, h⟩ := bind_inv h
  obtain ⟨t, h2, h⟩ := bind_inv h
  cases h
  have w1 : Words f.table := by
    refine foldInv (P := fun st : Fill => Words st.table) _ ?_ (words_fill _) h1
    intro d _ st st' hs hst
    unfold fillStep at hst
    split at hst
    · cases hst; exact hs
    obtain ⟨⟨t3, e3⟩, h3, hst⟩ := bind_inv hst
    obtain ⟨_, _, hst⟩ := bind_inv hst
    cases hst
    split at h3
    · next hle =>
      obtain ⟨t4, h4, h3⟩ := bind_inv h3
      cases h3
      exact fillLut_words hle hs h4
    · obtain ⟨_, _, h3⟩ := bind_inv h3
      obtain ⟨_, _, h3⟩ := bind_inv h3
      split at h3
      · split at h3
        · obtain ⟨⟨t5, b5⟩, h5, h3⟩ := bind_inv h3
          cases h3
          exact allocBucket_words hs h5
        · cases h3; exact hs
      · cases h3; exact hs
  have w2 : Words t := by
    refine foldInv _ ?_ w1 h2
    intro kb _ c c' hc h3
    exact buildEscLut_words _ hc h3
  intro x hx
  have := w2 x hx
  refine ⟨this, ?_⟩
  rw [Nat.shiftRight_eq_div_pow]
  omega

example : new (fun _ _ m => m) .msb ([⟨0, 1, 7⟩, ⟨2, 2, 8⟩] : List (Desc Nat)) =
    .ok (.ok ⟨[leafVal 0 1, leafVal 0 1, leafVal 1 2, FILL], [7, 8], 2⟩) := by decide

end Verif.Codebook
