import Verif.Codebook.Size
import Verif.Codebook.Props

/-!
# Properties C82-C84, C20: descriptions whose codes may overlap
-/

namespace Verif.Codebook
open Verif Verif.BitRead

/-! ### C82 -/

/-- **C82, partial** For every description, prefix free or not, whose used codes have no bit above their
length and at most 41 bits in MSB mode (any length, up to 255, in LSB mode), `Codebook::new` does not panic: it returns `InvalidCodebook` if there is no
used entry and otherwise a book, whose table is at most as large as `tableBound`.
Missing for C82: codes out of range, for which it is false (`c82_fails`); `Verif.Codebook.Panics` has exact
conditions. -/
theorem c82_total_partial (ord : Order) (hord : ord.Valid) (m : Mode) (ds : List (Desc S)) (hwf : WF m ds)
    (hn : (used ds).length < 2 ^ 32) :
    ∃ res, new ord m ds = .ok res ∧ (res = .error .invalidCodebook ↔ used ds = []) ∧
      ∀ cb, res = .ok cb → cb.syms = (used ds).map (·.sym) ∧ cb.table.length ≤ tableBound ds := by
  by_cases hne : used ds = []
  · refine ⟨_, (c19_invalid ord m ds).1 hne, by simp [hne], ?_⟩
    intro cb h; cases h
  · obtain ⟨T, dep, h1, _, _, h2⟩ := newTotal hord (m := m) hwf (Nat.le_refl _) (fun d h => (hwf d h).1) hn hne
    refine ⟨_, h1, by simp [hne], ?_⟩
    intro cb h
    cases h
    exact ⟨rfl, h2⟩

/-- Equal codes, a code that is a prefix of another, at all levels. -/
def overlapping : List (Desc Nat) :=
  [⟨0, 1, 1⟩, ⟨0, 11, 2⟩, ⟨2, 11, 3⟩, ⟨0, 22, 4⟩, ⟨0, 32, 5⟩, ⟨0, 32, 6⟩, ⟨0, 5, 7⟩]

example : insOrder.Valid ∧ WF .msb overlapping ∧ ¬ PrefixFree .msb overlapping ∧
    (used overlapping).length < 2 ^ 32 ∧ Fits .msb overlapping :=
  ⟨insOrder_valid, by decide, by decide, by decide, by decide⟩

/-- **C82** fails: a code with a bit above its length panics with an index out of bounds, and a long
code length with a shift overflow, in both modes or in MSB mode. -/
theorem c82_fails (ord : Order) :
    (∀ m, new ord m [(⟨2, 1, 0⟩ : Desc Nat)] = .error .index) ∧
    new ord .msb [(⟨0, 42, 0⟩ : Desc Nat)] = .error .shift := by
  refine ⟨?_, by rfl⟩
  intro m
  cases m <;> rfl

/-! ### C83 -/

theorem skip_index {e : Endian} {r r' : Reader} {n : Nat} (hn : n ≤ 64)
    (hi : r.index ≤ r.buffer.length) (h : skip_bits e r n = .ok r') : r'.index ≤ r'.buffer.length := by
  unfold skip_bits at h
  split at h
  · simp only [show ¬ n - r.left > 64 by omega, if_false] at h
    by_cases hc : canRefill (skipRem e r (n - r.left)) = true
    · obtain ⟨r1, a1, a2, a3, _⟩ := refill64_yes e _ hc
      rw [a1] at h
      cases h
      simp only [canRefill, decide_eq_true_eq] at hc
      simp only [skipRem_index, skipRem_buffer] at *
      rw [a3, a2]; omega
    · rw [refill64_no e _ (by simpa using hc)] at h
      cases h
      simpa using hi
  · cases h
    simpa using hi

theorem available_ok {r : Reader} : (∃ a, available r = .ok a) ↔ r.index ≤ r.buffer.length := by
  unfold available usub
  by_cases h : r.index ≤ r.buffer.length
  · simp [h]
  · simp [h]

theorem readLoop_total {e : Endian} {N B : Nat} {T : List Nat} {dep : Nat → Nat} (hT : TInv N B T dep)
    (hsz : T.length ≤ 2 ^ 24) (hN : N ≤ 2 ^ 24) (fuel off w : Nat) (hw : w ≤ 10)
    (hreg : off + 2 ^ w ≤ T.length) (hdep : ∀ j, j < 2 ^ w → B ≤ 10 * (fuel + dep (off + j))) (r : Reader)
    (hr : Weak e r) (hi : r.index ≤ r.buffer.length) :
    ∃ res r', readLoop e T fuel off w r = .ok (res, r') ∧ r'.buffer = r.buffer ∧ Weak e r' ∧
      r'.index ≤ r'.buffer.length ∧ (∀ i, res = .ok i → i < N) ∧
      (∀ err, res = .error err → err = .invalidCode) := by
  induction fuel generalizing off w r with
  | zero =>
    have h1 := hdep 0 (Nat.two_pow_pos w)
    have h2 := hT.le (off + 0) (by have := Nat.two_pow_pos w; omega)
    omega
  | succ fuel ih =>
    obtain ⟨_, r1, p1, _, _, _⟩ := step_weak hr (.peek32 w) (by simp only [widthOk]; omega)
    simp only [step] at p1
    cases hpk : peek_bits_32 e r w with
    | error p => rw [hpk] at p1; cases p1
    | ok x =>
      obtain ⟨v, r2⟩ := x
      obtain ⟨rfl, hv⟩ := peek32_lt hw hpk
      have hlt : off + v.toNat < T.length := by omega
      have hget : T[off + v.toNat]? = some T[off + v.toNat] := List.getElem?_eq_getElem hlt
      obtain ⟨a, ha⟩ := available_ok.mpr hi
      rcases hT.entry hsz _ _ hget with h1 | ⟨s, b, h1, h2, h3, h4⟩ | ⟨o, w', h1, h2, h3, h4⟩
      · rw [h1] at hget
        exact ⟨_, r2, readLoop_fill hpk hget, rfl, hr, hi, by simp, by simp⟩
      · rw [h4] at hget
        by_cases hb : b ≤ a % 2 ^ 32
        · obtain ⟨r', s1, s2, s3⟩ := skip_weak hr b
          refine ⟨_, r', readLoop_leaf (c := ⟨0, b, s⟩) hpk hget (by simp only; omega) h3 ha hb s1, s2, s3,
            skip_index (by omega) hi s1, ?_, by simp⟩
          intro i hi; cases hi; exact h1
        · refine ⟨.error .invalidCode, r2, ?_, rfl, hr, hi, by simp, by simp⟩
          obtain ⟨x1, x2, _, _⟩ := leafVal_dec (show s < 2 ^ 24 by omega) h3
          unfold readLoop
          rw [hpk]
          simp only [ok_bind]
          rw [Nat.add_comm, idx_some hget]
          simp only [ok_bind, x1, x2, if_false, ha]
          rw [if_pos (by omega)]
      · rw [h3] at hget
        have ho : o < 2 ^ 24 := by have := Nat.two_pow_pos w'; omega
        by_cases hb : w' ≤ a % 2 ^ 32
        · obtain ⟨r', s1, s2, s3⟩ := skip_weak hr w
          rw [readLoop_esc (fuel := fuel) hpk hget ho h1 ha hb s1]
          obtain ⟨res, r3, b1, b2, b3⟩ := ih o w' h1 h2 (by
              intro j hj
              have := h4 j hj
              have := hdep _ hv
              omega) r' s3 (skip_index (by omega) hi s1)
          exact ⟨res, r3, b1, by rw [b2, s2], b3⟩
        · refine ⟨.error .invalidCode, r2, ?_, rfl, hr, hi, by simp, by simp⟩
          obtain ⟨x1, x2, _, _⟩ := escVal_dec ho h1
          unfold readLoop
          rw [hpk]
          simp only [ok_bind]
          rw [Nat.add_comm, idx_some hget]
          simp only [ok_bind, x1, x2, if_false, ha]
          rw [if_pos (by omega)]

/-- **C83** With a book made from any description with codes in range, overlapping or not, `read_cb`
returns after at most one table look-up per ten bits of the longest code, without panic, in every reachable state of a reader of either
endianness on which `available` does not panic, near the end of the data too. The result is a symbol of a
used entry or `InvalidCode`, the buffer is untouched and `available` still does not panic. -/
theorem c83_read_total (ord : Order) (hord : ord.Valid) (m : Mode) (ds : List (Desc S)) (hwf : WF m ds)
    (hfit : Fits m ds) (cb : Codebook S) (hcb : new ord m ds = .ok (.ok cb)) (e : Endian) (buf : List U8)
    (r : Reader) (hr : Reachable e buf r) (a : Nat) (ha : available r = .ok a) (fuel : Nat)
    (hfu : ∀ d ∈ used ds, d.bits ≤ 10 * fuel) :
    ∃ res r' a', readCb e fuel cb r = .ok (res, r') ∧ r'.buffer = buf ∧ available r' = .ok a' ∧
      (res = .error .invalidCode ∨ ∃ d ∈ used ds, res = .ok d.sym) := by
  have hne : used ds ≠ [] := ((c19_invalid ord m ds).2.2 cb hcb).1
  obtain ⟨hb1, hb2⟩ := hfit
  obtain ⟨T, dep, h1, h2, h3, h4⟩ := newTotal hord (m := m) (B := min (maxLen m) (10 * fuel)) hwf (by omega)
    (fun d h => by have := (hwf d h).1; have := hfu d h; omega) (by omega) hne
  have h5 := (c132_size ord hord m ds hwf cb hcb).1
  rw [hcb] at h1
  simp only [Except.ok.injEq] at h1
  subst h1
  simp only at h5
  obtain ⟨hw, hbuf⟩ := hr.weak
  obtain ⟨res, r', a1, a2, a3, a4, a5, a6⟩ := readLoop_total h2 (by omega) hb2 fuel 0
    (nb (codesFrom 0 ds)) (nb_le _) (by omega) (fun j _ => by omega) r hw (available_ok.mp ⟨a, ha⟩)
  obtain ⟨a', ha'⟩ := available_ok.mpr a4
  unfold readCb
  simp only [a1, ok_bind]
  cases res with
  | error err =>
    refine ⟨.error err, r', a', rfl, by rw [a2, hbuf], ha', .inl ?_⟩
    rw [a6 err rfl]
  | ok i =>
    have hi := a5 i rfl
    have hget : ((used ds).map (·.sym))[i]? = some ((used ds)[i]).sym := by simp [hi]
    simp only [idx_some hget, ok_bind, pure_eq_ok]
    exact ⟨_, r', a', rfl, by rw [a2, hbuf], ha', .inr ⟨(used ds)[i], List.getElem_mem hi, rfl⟩⟩

/-- One look-up per ten bits: four are enough for codes of 32 bits. -/
example : WF .msb overlapping ∧ Fits .msb overlapping ∧ ∀ d ∈ used overlapping, d.bits ≤ 10 * 4 := by decide

/-- Five bits before the end. -/
example : ∃ r, Reachable .be (List.replicate 16 0) r ∧ available r = .ok 5 :=
  ⟨_, ⟨_, [.get64 64, .get64 59], _, rfl, by decide, rfl⟩, by decide⟩

/-! ### C20 and C84: short codes -/

def cellOf (o : Option Code) : Nat :=
  match o with
  | none => FILL
  | some c => leafVal c.idx c.bits

theorem fillShort {N : Nat} (hN : N < 2 ^ 32) {m : Mode} {L : List Code} (hwf : CW N 10 L)
    (hlen : L.length = N) (ds : List (Desc S)) (pre : List Code)
    (hL : pre ++ codesFrom pre.length ds = L) {T : List Nat} (hT : T.length = 2 ^ nb L)
    (hcell : ∀ i, i < 2 ^ nb L → T[i]? = some (cellOf (hitOf m (nb L) i pre))) :
    ∃ T' n, ds.foldlM (fillStep m (nb L)) ⟨T, [], pre.length⟩ = .ok ⟨T', [], n⟩ ∧ T'.length = 2 ^ nb L ∧
      ∀ i, i < 2 ^ nb L → T'[i]? = some (cellOf (hitOf m (nb L) i L)) := by
  induction ds generalizing pre T with
  | nil =>
    simp only [codesFrom, List.append_nil] at hL
    subst hL
    exact ⟨T, _, rfl, hT, hcell⟩
  | cons d ds ih =>
    by_cases h0 : d.bits = 0
    · simp only [codesFrom, h0, if_true] at hL
      obtain ⟨T', n, a1, a2⟩ := ih pre hL hT hcell
      refine ⟨T', n, ?_, a2⟩
      rw [List.foldlM_cons, ← a1]
      simp only [fillStep, h0, if_true, ok_bind]
    · simp only [codesFrom, h0, if_false] at hL
      have hc : (⟨d.code, d.bits, pre.length⟩ : Code) ∈ L := by rw [← hL]; simp
      obtain ⟨w1, w2, w3, w4⟩ := hwf _ hc
      simp only at w1 w2 w3 w4
      have hlt2 : pre.length + 1 < 2 ^ 32 := by omega
      have hlen : (pre ++ [(⟨d.code, d.bits, pre.length⟩ : Code)]).length = pre.length + 1 := by simp
      have hL' : (pre ++ [(⟨d.code, d.bits, pre.length⟩ : Code)]) ++
          codesFrom (pre ++ [(⟨d.code, d.bits, pre.length⟩ : Code)]).length ds = L := by
        rw [hlen, List.append_assoc]; exact hL
      obtain ⟨T1, f1, f2, f3, f4⟩ := fillLut_leaf (m := m) (t := T) (off := 0) (s := pre.length)
        (bits_le_nb hc w2) (nb_le L) w3 (by omega)
      simp only at f1 f3 f4
      obtain ⟨T', n, a1, a2⟩ := ih _ hL' (T := T1) (by rw [f2, hT]) (by
        intro i hi
        rw [hitOf_snoc]
        by_cases hh : top m (nb L) d.bits i = d.code
        · have := f3 i hi hh
          rw [Nat.zero_add] at this
          rw [this, if_pos hh]; rfl
        · rw [if_neg hh, ← hcell i hi]
          apply f4
          intro i' _ h2 h3
          rw [Nat.zero_add] at h3
          subst h3
          exact hh h2)
      rw [hlen] at a1
      refine ⟨T', n, ?_, a2⟩
      rw [List.foldlM_cons, ← a1]
      simp only [fillStep, h0, if_false, f1, ok_bind, pure_eq_ok, add32_ok hlt2]
      rw [if_pos (by simpa [MAX_LUT_BITS] using w2)]
      rfl

/-- The table of a description without long codes, overlapping or not. -/
theorem newShort {m : Mode} {ds : List (Desc S)} (hwf : WF m ds)
    (hshort : ∀ d ∈ used ds, d.bits ≤ 10) (hn : (used ds).length < 2 ^ 32) (hne : used ds ≠ []) :
    ∃ T, (∀ ord : Order, ord.Valid →
        new ord m ds = .ok (.ok ⟨T, (used ds).map (·.sym), nb (codesFrom 0 ds)⟩)) ∧
      T.length = 2 ^ nb (codesFrom 0 ds) ∧
      ∀ i, i < 2 ^ nb (codesFrom 0 ds) →
        T[i]? = some (cellOf (hitOf m (nb (codesFrom 0 ds)) i (codesFrom 0 ds))) := by
  have hCW : CW (used ds).length 10 (codesFrom 0 ds) := by
    intro c hc
    obtain ⟨w1, _, w3⟩ := codesFrom_CW hwf (B := maxLen m) (fun d h => (hwf d h).1) c hc
    obtain ⟨_, d, h1, h2, h3⟩ := mem_codesFrom hc
    have := hshort d (List.mem_of_getElem? h1)
    exact ⟨w1, by omega, w3⟩
  have hb32 : ∀ d ∈ ds, d.bits ≤ maxLen m := by
    intro d hd
    by_cases h : d.bits = 0
    · omega
    · exact (hwf d (List.mem_filter.mpr ⟨hd, by simp; omega⟩)).1
  obtain ⟨M0, g1, g2⟩ := gatherFold (m := m) ds [] [] hb32 (Grouped.nil m)
  simp only [List.nil_append, List.length_nil] at g1 g2
  have g1' : ds.foldlM (gatherStep m) { maxbits := 0, esc := [], symidx := 0 } = _ := g1
  have hM0 : M0 = [] := by
    cases hM : M0 with
    | nil => rfl
    | cons kb M =>
      have := mem_get g2.nodup (show (kb.1, kb.2) ∈ M0 by rw [hM]; simp)
      rw [g2.get] at this
      have hs := (bucketOf_some this).1
      obtain ⟨c', hc'⟩ := List.exists_mem_of_ne_nil _ hs
      obtain ⟨c, h1, h2, _⟩ := mem_sub.mp hc'
      have := (hCW c h1).2.1
      omega
  subst hM0
  have hL : codesFrom 0 ds ≠ [] := by
    intro h
    have := codesFrom_length 0 ds
    rw [h] at this
    exact hne (List.length_eq_zero_iff.mp this.symm)
  obtain ⟨c0, hc0⟩ := List.exists_mem_of_ne_nil _ hL
  have hml : 0 < maxlen (codesFrom 0 ds) := by
    have := le_maxlen hc0; have := (hCW c0 hc0).1; omega
  have hnb : (if maxlen (codesFrom 0 ds) > MAX_LUT_BITS then MAX_LUT_BITS else maxlen (codesFrom 0 ds)) =
      nb (codesFrom 0 ds) := by unfold nb MAX_LUT_BITS; split <;> omega
  obtain ⟨T, n, f1, f2⟩ := fillShort (m := m) hn hCW (codesFrom_length 0 ds) ds [] rfl
    (T := List.replicate (1 <<< nb (codesFrom 0 ds)) FILL) (by simp [Nat.shiftLeft_eq]) (by
      intro i hi
      rw [List.getElem?_replicate, if_pos (by rw [Nat.shiftLeft_eq]; omega)]
      rfl)
  simp only [List.length_nil] at f1
  refine ⟨T, ?_, f2⟩
  intro ord hord
  have hnil : ord [] 1 [] = [] := (hord [] 1 []).eq_nil
  unfold new
  rw [g1']
  simp only [ok_bind, show ¬ maxlen (codesFrom 0 ds) = 0 by omega, if_false, hnb, f1, hnil, pure_eq_ok,
    List.foldlM_nil]
  rfl

/-- The same, with the table written out. -/
theorem newShort_table {m : Mode} {ds : List (Desc S)} (hwf : WF m ds)
    (hshort : ∀ d ∈ used ds, d.bits ≤ 10) (hn : (used ds).length < 2 ^ 32) (hne : used ds ≠ []) (ord : Order)
    (hord : ord.Valid) :
    new ord m ds = .ok (.ok ⟨(List.range (2 ^ nb (codesFrom 0 ds))).map fun i =>
      cellOf (hitOf m (nb (codesFrom 0 ds)) i (codesFrom 0 ds)), (used ds).map (·.sym), nb (codesFrom 0 ds)⟩) := by
  obtain ⟨T, h1, h2, h3⟩ := newShort hwf hshort hn hne
  have : T = (List.range (2 ^ nb (codesFrom 0 ds))).map fun i =>
      cellOf (hitOf m (nb (codesFrom 0 ds)) i (codesFrom 0 ds)) := by
    apply List.ext_getElem?
    intro i
    by_cases hi : i < 2 ^ nb (codesFrom 0 ds)
    · rw [h3 i hi, List.getElem?_map, List.getElem?_range hi]; rfl
    · rw [List.getElem?_eq_none (by omega), List.getElem?_eq_none (by simp; omega)]
  rw [h1 ord hord, this]

/-- Decoding rule for overlapping codes: the entry listed last wins. -/
def lastMatch (e : Endian) (m : Mode) (ds : List (Desc S)) (buf : List U8) (p : Nat) : Option (Desc S) :=
  (used ds).reverse.find? fun d => decide (streamBits e buf p d.bits = codeBits m d.code d.bits)

theorem codesFrom_zipIdx (k : Nat) (ds : List (Desc S)) :
    codesFrom k ds = ((used ds).zipIdx k).map fun x => ⟨x.1.code, x.1.bits, x.2⟩ := by
  induction ds generalizing k with
  | nil => rfl
  | cons d ds ih =>
    by_cases h : d.bits = 0
    · have : used (d :: ds) = used ds := by simp [used, h]
      simp only [codesFrom, h, if_true, this, ih]
    · have : used (d :: ds) = d :: used ds := by simp [used, show 0 < d.bits by omega]
      simp only [codesFrom, h, if_false, this, List.zipIdx_cons, List.map_cons, ih]

/-- The entry found in the table is the one the decoding rule names. -/
theorem hitOf_lastMatch {e : Endian} {m : Mode} {buf : List U8} {p w i : Nat} (ds : List (Desc S))
    (hi : ∀ d ∈ used ds, (top m w d.bits i = d.code ↔
      streamBits e buf p d.bits = codeBits m d.code d.bits)) :
    (hitOf m w i (codesFrom 0 ds) = none ∧ lastMatch e m ds buf p = none) ∨
    ∃ c d, hitOf m w i (codesFrom 0 ds) = some c ∧ lastMatch e m ds buf p = some d ∧
      (used ds)[c.idx]? = some d ∧ d.bits = c.bits ∧ c ∈ codesFrom 0 ds := by
  have h1 : hitOf m w i (codesFrom 0 ds) = ((used ds).zipIdx.reverse.find? fun x =>
      decide (top m w x.1.bits i = x.1.code)).map fun x => ⟨x.1.code, x.1.bits, x.2⟩ := by
    rw [hitOf, codesFrom_zipIdx, ← List.map_reverse, List.find?_map]
    rfl
  have h2 : lastMatch e m ds buf p = ((used ds).zipIdx.reverse.find? fun x =>
      decide (top m w x.1.bits i = x.1.code)).map (·.1) := by
    have e1 : (used ds).reverse = (used ds).zipIdx.reverse.map (·.1) := by
      rw [List.map_reverse, List.zipIdx_map_fst]
    rw [lastMatch, e1, List.find?_map]
    congr 1
    have key : ∀ l : List (Desc S × Nat), (∀ x ∈ l, x.1 ∈ used ds) →
        l.find? ((fun d => decide (streamBits e buf p d.bits = codeBits m d.code d.bits)) ∘ fun x => x.1) =
        l.find? fun x => decide (top m w x.1.bits i = x.1.code) := by
      intro l
      induction l with
      | nil => intro _; rfl
      | cons x l ih =>
        intro hl
        have hx := hi x.1 (hl x (by simp))
        rw [List.find?_cons, List.find?_cons, ih fun y hy => hl y (by simp [hy])]
        simp only [Function.comp, hx]
    apply key
    intro x hx
    have := List.mem_map_of_mem (f := fun x => x.1) (List.mem_reverse.mp hx)
    rwa [List.zipIdx_map_fst] at this
  cases hx : (used ds).zipIdx.reverse.find? fun x => decide (top m w x.1.bits i = x.1.code) with
  | none => rw [hx] at h1 h2; exact .inl ⟨h1, h2⟩
  | some x =>
    rw [hx] at h1 h2
    have hm := List.mem_reverse.mp (List.mem_of_find?_eq_some hx)
    refine .inr ⟨_, _, h1, h2, ?_, rfl, ?_⟩
    · exact List.mem_zipIdx_iff_getElem?.mp hm
    · rw [codesFrom_zipIdx]
      exact List.mem_map.mpr ⟨x, hm, rfl⟩

/-- **C20, partial** What happens instead of a rejection, for descriptions without codes over 10 bits:
the description is accepted whether it is ambiguous or not, and `read_cb` decodes to the entry listed
last among those whose codeword comes next, and to `InvalidCode` (without moving) if there is none.
Missing for C20: the rejection (false, `c20_fails`); with longer codes an ambiguity also damages
unrelated entries (`c20_fails`) and the result depends on the hash map order (`c84_fails`). -/
theorem c20_last_wins_partial (ord : Order) (hord : ord.Valid) (m : Mode) (ds : List (Desc S)) (hwf : WF m ds)
    (hshort : ∀ d ∈ used ds, d.bits ≤ 10) (hn : (used ds).length ≤ 2 ^ 24) (hne : used ds ≠ [])
    (buf : List U8) (pre : List Op) (hpre : within buf 0 pre)
    (hin : (specRun (endianOf m) buf 0 pre).2 + 10 + 64 ≤ 8 * buf.length)
    (h32 : 8 * buf.length < 2 ^ 32) (fuel : Nat) (hfu : 1 ≤ fuel) :
    ∃ cb r0 vs r r', new ord m ds = .ok (.ok cb) ∧ BitRead.new (endianOf m) buf = .ok r0 ∧
      run (endianOf m) r0 pre = .ok (vs, r) ∧
      match lastMatch (endianOf m) m ds buf (specRun (endianOf m) buf 0 pre).2 with
      | none => readCb (endianOf m) fuel cb r = .ok (.error .invalidCode, r)
      | some d => readCb (endianOf m) fuel cb r = .ok (.ok d.sym, r') ∧
          StandsAt (endianOf m) buf r' ((specRun (endianOf m) buf 0 pre).2 + d.bits) := by
  obtain ⟨T, h1, -, h2⟩ := newShort (m := m) hwf hshort (by omega) hne
  obtain ⟨r0, n1, n2, _, n3⟩ := new_spec (endianOf m) buf
  obtain ⟨r, a1, a2, a3⟩ := run_within n3 pre (by rw [n2]; exact hpre)
  rw [n2] at a1 a2 a3
  generalize (specRun (endianOf m) buf 0 pre).2 = p at *
  obtain ⟨fuel, rfl⟩ : ∃ k, fuel = k + 1 := ⟨fuel - 1, by omega⟩
  obtain ⟨v, v1, v2, v3⟩ := peek_top a3 (nb_le (codesFrom 0 ds))
  have hcell := h2 v.toNat v2
  rcases hitOf_lastMatch (e := endianOf m) (m := m) (buf := buf) (p := p) (w := nb (codesFrom 0 ds))
      (i := v.toNat) ds (by
        intro d hd
        have hb := hshort d hd
        obtain ⟨j, hj, hjd⟩ := List.mem_iff_getElem.mp hd
        have hc := codesFrom_get (k := 0) (show (used ds)[j]? = some d by
          rw [← hjd]; exact List.getElem?_eq_getElem hj)
        have hbn := bits_le_nb hc hb
        simp only at hbn
        rw [v3 d.bits hbn (by rw [a2]; omega), streamBits_code (hwf d hd).2, a2]) with
    ⟨g1, g2⟩ | ⟨c, d, g1, g2, g3, g4, g5⟩
  · rw [g1] at hcell
    refine ⟨_, r0, _, r, r, h1 ord hord, n1, a1, ?_⟩
    rw [g2]
    simp only [readCb, readLoop_fill (fuel := fuel) (off := 0) v1 (by rw [Nat.zero_add]; exact hcell), ok_bind]
  · rw [g1] at hcell
    have hcw := codesFrom_CW hwf (B := maxLen m) (fun d h => (hwf d h).1) c g5
    have hb10 := hshort d (List.mem_of_getElem? g3)
    obtain ⟨r', s1, s2, s3⟩ := skip_within a3 (n := c.bits) (by rw [a2]; omega)
    refine ⟨_, r0, _, r, r', h1 ord hord, n1, a1, ?_⟩
    rw [g2]
    have hav := a3.available
    have hpos := a3.pos
    refine ⟨?_, ?_⟩
    · simp only [readCb, readLoop_leaf (fuel := fuel) (off := 0) (c := c) v1
        (by rw [Nat.zero_add]; exact hcell) (by omega) (by omega) hav (by rw [a2]; omega) s1, ok_bind]
      have : ((used ds).map (·.sym))[c.idx]? = some d.sym := by simp [g3]
      rw [idx_some this]
      rfl
    · have := Synced.standsAt s3
      rwa [s2, a2, ← g4] at this

/-- `0` and `00` overlap; `00` is listed later and wins. -/
def shortAmbiguous : List (Desc Nat) := [⟨0, 1, 1⟩, ⟨0, 2, 2⟩, ⟨3, 2, 3⟩]

example : WF .msb shortAmbiguous ∧ ¬ PrefixFree .msb shortAmbiguous ∧ (∀ d ∈ used shortAmbiguous, d.bits ≤ 10) ∧
    lastMatch .be .msb shortAmbiguous (List.replicate 16 0) 0 = some ⟨0, 2, 2⟩ ∧
    lastMatch .be .msb shortAmbiguous (0x40 :: List.replicate 16 0) 0 = some ⟨0, 1, 1⟩ ∧
    lastMatch .be .msb shortAmbiguous (0x80 :: List.replicate 16 0) 0 = none := by decide

/-! ### C84 -/

/-- **C84, partial** Without codes over 10 bits the book does not depend on the iteration order of hash
maps at all. (With longer codes, `c18_order` shows it for prefix-free descriptions.)
Missing for C84: overlapping descriptions with long codes, for which it is false (`c84_fails`). -/
theorem c84_short_partial (ord ord' : Order) (hord : ord.Valid) (hord' : ord'.Valid) (m : Mode)
    (ds : List (Desc S)) (hwf : WF m ds) (hshort : ∀ d ∈ used ds, d.bits ≤ 10)
    (hn : (used ds).length < 2 ^ 32) : new ord m ds = new ord' m ds := by
  by_cases hne : used ds = []
  · rw [(c19_invalid ord m ds).1 hne, (c19_invalid ord' m ds).1 hne]
  · obtain ⟨T, h1, _⟩ := newShort (m := m) hwf hshort hn hne
    rw [h1 ord hord, h1 ord' hord']

example : insOrder.Valid ∧ revOrder.Valid ∧ WF .msb shortAmbiguous ∧ (∀ d ∈ used shortAmbiguous, d.bits ≤ 10) ∧
    used shortAmbiguous ≠ [] := ⟨insOrder_valid, revOrder_valid, by decide, by decide, by decide⟩

/-- Nine zeros are a prefix of two codes of 11 bits with different first 10 bits. -/
def shadowed : List (Desc Nat) := [⟨0, 9, 1⟩, ⟨0, 11, 2⟩, ⟨2, 11, 3⟩]

/-- **C84** fails: with the same description and the same data, the symbol decoded depends on the order
in which the hash map is iterated (`std` randomises it per process). -/
theorem c84_fails : WF .msb shadowed ∧ Fits .msb shadowed ∧ insOrder.Valid ∧ revOrder.Valid ∧
    ∃ (cb cb' : Codebook Nat) (r r1 r2 : Reader), new insOrder .msb shadowed = .ok (.ok cb) ∧
      new revOrder .msb shadowed = .ok (.ok cb') ∧ BitRead.new .be (List.replicate 16 0) = .ok r ∧
      readCb .be 4 cb r = .ok (.ok 3, r1) ∧ readCb .be 4 cb' r = .ok (.ok 2, r2) := by
  refine ⟨by decide, by decide, insOrder_valid, revOrder_valid, ?_⟩
  obtain ⟨T, _, h1, _⟩ := newTotal insOrder_valid (m := .msb) (ds := shadowed) (B := 41) (by decide) (by decide) (by decide) (by decide)
    (by decide)
  obtain ⟨T', _, h1', _⟩ := newTotal revOrder_valid (m := .msb) (ds := shadowed) (B := 41) (by decide) (by decide) (by decide) (by decide)
    (by decide)
  obtain ⟨r, n1, _⟩ := new_spec .be (List.replicate 16 0)
  have key : ∀ (ord : Order) (x : Nat), (match new ord .msb shadowed with
      | .ok (.ok cb) => (do
        let r ← BitRead.new .be (List.replicate 16 0)
        let (s, _) ← readCb .be 4 cb r
        return s)
      | _ => .error .assert) = Except.ok (.ok x) →
      ∀ cb r, new ord .msb shadowed = .ok (.ok cb) → BitRead.new .be (List.replicate 16 0) = .ok r →
        ∃ r1, readCb .be 4 cb r = .ok (.ok x, r1) := by
    intro ord x h cb r hcb hr
    rw [hcb, hr] at h
    simp only [ok_bind] at h
    cases hx : readCb .be 4 cb r with
    | error p => rw [hx] at h; cases h
    | ok y =>
      obtain ⟨s, r1⟩ := y
      rw [hx] at h
      cases h
      exact ⟨r1, rfl⟩
  obtain ⟨r1, k1⟩ := key insOrder 3 (by decide +kernel) _ r h1 n1
  obtain ⟨r2, k2⟩ := key revOrder 2 (by decide +kernel) _ r h1' n1
  exact ⟨_, _, r, r1, r2, h1, h1', n1, k1, k2⟩

end Verif.Codebook
