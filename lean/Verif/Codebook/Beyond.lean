import Verif.Codebook.Panics

/-!
# Property C82 in MSB mode: exactly when `Codebook::new` panics

`c82_msb_exact_partial` decides the outcome for every description in MSB mode with lengths of at most 41 bits, whatever
bits the codes have above their lengths. (Longer ones end with a shift overflow, `c82_shift_exact_partial`.)
-/

namespace Verif.Codebook
open Verif Verif.BitRead

/-- What the outcome depends on: how many cells the table has so far, and which of them are in use. -/
structure Space where
  cells : Nat
  inUse : List Nat
  deriving DecidableEq, Repr

/-- The cell of a code of more than ten bits: what is left of its first ten bits. -/
def firstPart (d : Desc S) : Nat := d.code / 2 ^ (d.bits - 10)

/-- The length of the longest code that has the cell `k`, without its first ten bits. -/
def longest (part : Desc S → Nat) (ds : List (Desc S)) (k : Nat) : Nat :=
  (ds.filter fun d => decide (10 < d.bits) && decide (part d = k)).foldl (fun a d => max a (d.bits - 10)) 0

/-- The next entry, of the description `ds` with a first part of the table for `w` bits: a code of at most `w ≤ 10`
bits needs the cells that begin with it, a longer code needs its cell, and new cells unless that is in use. -/
def Space.next (ds : List (Desc S)) (w : Nat) (r : Space) (d : Desc S) : Option Space :=
  if d.bits ≤ 10 then
    let lo := d.code * 2 ^ (w - d.bits) % 2 ^ 32
    if lo + 2 ^ (w - d.bits) ≤ r.cells then
      some { r with inUse := (List.range (2 ^ (w - d.bits))).map (lo + ·) ++ r.inUse }
    else none
  else if firstPart d < r.cells then
    some (if firstPart d ∈ r.inUse then r
      else ⟨r.cells + 2 ^ min (longest firstPart ds (firstPart d)) 10, firstPart d :: r.inUse⟩)
  else none

/-- The room for all entries, or none. -/
def roomFor (ds : List (Desc S)) : Option Space :=
  let w := min ((used ds).foldl (fun a d => max a d.bits) 0) 10
  (used ds).foldlM (Space.next ds w) ⟨2 ^ w, []⟩

/-! ### `build_esc_lut` on codes in range -/

/-- A bucket and the part of the table it writes to. -/
structure Roomy (N d len : Nat) (b : CodeBucket) : Prop where
  ne : b.codes ≠ []
  ml : b.maxlen = maxlen b.codes
  cw : CW N (41 - 10 * d) b.codes
  reg : b.offset + 2 ^ nb b.codes ≤ len

theorem Roomy.mono {N d len len' : Nat} {b : CodeBucket} (h : Roomy N d len b) (hl : len ≤ len') :
    Roomy N d len' b := ⟨h.ne, h.ml, h.cw, by have := h.reg; omega⟩

theorem escRoom {N : Nat} {L : List Code} (hwf : CW N 41 L)
    {off : Nat} (post pre : List Code) (hL : pre ++ post = L) {T : List Nat}
    {M : EscapeCodes} (hreg : off + 2 ^ nb L ≤ T.length) (hM : Grouped .msb pre M) :
    ∃ T' M', post.foldlM (escStep .msb off (nb L)) (T, M) = .ok (T', M') ∧ T'.length = T.length ∧
      Grouped .msb L M' := by
  induction post generalizing pre T M with
  | nil =>
    simp only [List.append_nil] at hL
    subst hL
    exact ⟨T, M, rfl, rfl, hM⟩
  | cons c post ih =>
    have hc : c ∈ L := by rw [← hL]; simp
    obtain ⟨w1, w2, w3, _⟩ := hwf c hc
    by_cases hb : c.bits ≤ 10
    · obtain ⟨T1, f1, f2, _⟩ := fillLut_leaf (m := .msb) (t := T) (off := off) (s := c.idx % 2 ^ 32)
        (bits_le_nb hc hb) (nb_le L) w3 hreg
      obtain ⟨T2, M2, a1, a2, a3⟩ := ih (pre ++ [c]) (by simp [hL]) (by rw [f2]; exact hreg) (hM.short hb)
      refine ⟨T2, M2, ?_, by rw [a2, f2], a3⟩
      simp only [List.foldlM_cons, escStep, MAX_LUT_BITS, hb, if_true, f1, ok_bind, pure_eq_ok]
      exact a1
    · obtain ⟨T2, M2, a1, a2⟩ := ih (pre ++ [c]) (by simp [hL]) hreg (hM.long (by omega))
      refine ⟨T2, M2, ?_, a2⟩
      simp only [List.foldlM_cons, escStep, extractLut_ok (m := .msb) (show 10 < c.bits by omega) w2,
        extractEsc_ok (m := .msb) (show 10 < c.bits by omega) w2, ok_bind, pure_eq_ok]
      rw [if_neg (by simpa [MAX_LUT_BITS] using hb)]
      exact a1

theorem allocRoom1 {m : Mode} {T : List Nat} {off k : Nat} (hk : off + k < T.length) (b : CodeBucket) :
    allocBucket m T off k b = .ok ((T ++ List.replicate (2 ^ min b.maxlen 10) FILL).set (off + k)
      (escVal (T.length % 2 ^ 32) (min b.maxlen 10)), { b with offset := T.length % 2 ^ 32 }) := by
  have hpos := Nat.two_pow_pos (min b.maxlen 10)
  unfold allocBucket resizeTable
  rw [show MAX_LUT_BITS = 10 from rfl]
  simp only [shl32_one (show min b.maxlen 10 < 32 by omega), ok_bind, pure_eq_ok]
  rw [fillLut_esc (show off + k < (T ++ List.replicate (2 ^ min b.maxlen 10) FILL).length by simp; omega)]
  rfl

theorem Roomy.alloc {N d len : Nat} {L : List Code} {kb : Nat × CodeBucket} (hb : IsBucket .msb L kb)
    (hcw : CW N (41 - 10 * d) (sub .msb L kb.1)) :
    Roomy N d (len + 2 ^ min kb.2.maxlen 10) { kb.2 with offset := len % 2 ^ 32 } := by
  obtain ⟨b1, b2, b3⟩ := hb
  have hnb : min kb.2.maxlen 10 = nb kb.2.codes := by rw [b3, b2]; rfl
  have hmod := Nat.mod_le len (2 ^ 32)
  refine ⟨by simp only; rw [b2]; exact b1, by simp only; rw [b2, b3], by simp only; rw [b2]; exact hcw, ?_⟩
  simp only
  rw [hnb]
  omega

theorem allocRoom {N d : Nat} {L : List Code} (hwf : CW N (41 - 10 * d) L) {off : Nat}
    (todo : EscapeCodes) {T : List Nat} {Q : EscapeCodes}
    (hreg : off + 2 ^ nb L ≤ T.length)
    (hQ : ∀ kb ∈ Q, Roomy N (d + 1) T.length kb.2) (ht : ∀ kb ∈ todo, IsBucket .msb L kb) :
    ∃ T' Q', todo.foldlM (allocStep .msb off) (T, Q) = .ok (T', Q') ∧ T.length ≤ T'.length ∧
      (∀ kb ∈ Q', Roomy N (d + 1) T'.length kb.2) := by
  induction todo generalizing T Q with
  | nil => exact ⟨T, Q, rfl, Nat.le_refl _, hQ⟩
  | cons kb todo ih =>
    have hkb := ht kb (by simp)
    obtain ⟨k1, k2, k3⟩ := sub_level (B := 41) hwf hkb.1
    have hpos := Nat.two_pow_pos (min kb.2.maxlen 10)
    have f1 := allocRoom1 (m := .msb) (T := T) (off := off) (k := kb.1) (by omega) kb.2
    generalize hT1 : (T ++ List.replicate (2 ^ min kb.2.maxlen 10) FILL).set (off + kb.1)
      (escVal (T.length % 2 ^ 32) (min kb.2.maxlen 10)) = T1 at f1
    have hl : T1.length = T.length + 2 ^ min kb.2.maxlen 10 := by rw [← hT1]; simp
    obtain ⟨T2, Q2, a1, a2, a3⟩ := ih (T := T1)
      (Q := Q ++ [(kb.1, { kb.2 with offset := T.length % 2 ^ 32 })]) (by omega)
      (by
        intro kb' hkb'
        rcases List.mem_append.mp hkb' with h | h
        · exact (hQ kb' h).mono (by omega)
        · simp only [List.mem_singleton] at h; subst h
          simp only
          rw [hl]
          exact Roomy.alloc hkb ((hwf.sub kb.1).mono (by omega)))
      (fun kb' h => ht kb' (by simp [h]))
    refine ⟨T2, Q2, ?_, by omega, a3⟩
    simp only [List.foldlM_cons, allocStep, f1, ok_bind, pure_eq_ok]
    exact a1

theorem foldRoom {N d : Nat} {build : List Nat → Nat × CodeBucket → Rust (List Nat)} (Q : EscapeCodes)
    (hb : ∀ kb ∈ Q, ∀ (T : List Nat), Roomy N d T.length kb.2 →
      ∃ T', build T kb = .ok T' ∧ T.length ≤ T'.length)
    {T : List Nat} (hQ : ∀ kb ∈ Q, Roomy N d T.length kb.2) :
    ∃ T', Q.foldlM build T = .ok T' ∧ T.length ≤ T'.length := by
  induction Q generalizing T with
  | nil => exact ⟨T, rfl, Nat.le_refl _⟩
  | cons kb Q ih =>
    obtain ⟨T1, a1, a2⟩ := hb kb (by simp) T (hQ kb (by simp))
    obtain ⟨T2, b1, b2⟩ := ih (fun kb' h => hb kb' (by simp [h])) (fun kb' h => (hQ kb' (by simp [h])).mono a2)
    exact ⟨T2, by rw [List.foldlM_cons, a1]; exact b1, by omega⟩

theorem isBuckets {m : Mode} {L : List Code} {M : EscapeCodes} (h : Grouped m L M) :
    ∀ kb ∈ M, IsBucket m L kb := by
  intro kb hkb
  have := mem_get h.nodup (show (kb.1, kb.2) ∈ M from hkb)
  rw [h.get] at this
  exact bucketOf_some this

theorem buildRoom {ord : Order} (hord : ord.Valid) {N : Nat} (fuel d : Nat) (hfu : 26 ≤ d + fuel)
    (path : List Nat) (b : CodeBucket) (T : List Nat) (hb : Roomy N d T.length b) :
    ∃ T', buildEscLut ord .msb fuel path T b = .ok T' ∧ T.length ≤ T'.length := by
  induction fuel generalizing d path b T with
  | zero =>
    obtain ⟨c, hc⟩ := List.exists_mem_of_ne_nil _ hb.ne
    have := hb.cw c hc
    omega
  | succ fuel ih =>
    have hnb : min b.maxlen MAX_LUT_BITS = nb b.codes := by rw [hb.ml]; rfl
    obtain ⟨T1, M, a1, a2, a3⟩ := escRoom (hb.cw.mono (by omega)) b.codes [] rfl hb.reg (Grouped.nil .msb)
    have hp0 := hord path 0 M
    obtain ⟨T2, Q, b1, b2, b3⟩ := allocRoom (L := b.codes) (d := d) hb.cw
      (off := b.offset) (ord path 0 M) (T := T1) (Q := []) (by rw [a2]; exact hb.reg)
      (by simp) (fun kb h => isBuckets a3 kb (hp0.mem_iff.mp h))
    have hp1 := hord path 1 Q
    obtain ⟨T3, c1, c2⟩ := foldRoom (ord path 1 Q) (d := d + 1)
      (build := fun t kb => buildEscLut ord .msb fuel (path ++ [kb.1]) t kb.2)
      (fun kb _ T h => ih (d + 1) (by omega) _ kb.2 T h) (fun kb h => b3 kb (hp1.mem_iff.mp h))
    refine ⟨T3, ?_, by omega⟩
    simp only [buildEscLut, hnb, a1, ok_bind, b1]
    exact c1

/-! ### The second loop of `Codebook::new` -/

/-- The table with the `n` cells from `lo` overwritten. -/
def stamp (T : List Nat) (lo n v : Nat) : List Nat := T.mapIdx fun i x => if lo ≤ i ∧ i < lo + n then v else x

theorem stamp_get (T : List Nat) (lo n v j : Nat) :
    (stamp T lo n v)[j]? = (T[j]?).map fun x => if lo ≤ j ∧ j < lo + n then v else x := by
  unfold stamp
  rw [List.getElem?_mapIdx]

theorem stampFold {lo n : Nat} (v : Nat) (h : lo + n ≤ 2 ^ 32) (T : List Nat) :
    (List.range n).foldlM (init := T) (fun t j => do
      let i ← add32 lo j
      setIdx t (i + 0) v) =
    if n = 0 ∨ lo + n ≤ T.length then .ok (stamp T lo n v) else .error .index := by
  induction n with
  | zero =>
    rw [if_pos (.inl rfl)]
    show Except.ok T = _
    congr 1
    apply List.ext_getElem?
    intro j
    rw [stamp_get]
    cases T[j]? with
    | none => rfl
    | some x => simp only [Option.map_some]; rw [if_neg (by omega)]
  | succ n ih =>
    rw [List.range_succ, List.foldlM_append, ih (by omega)]
    by_cases h1 : n = 0 ∨ lo + n ≤ T.length
    · rw [if_pos h1, ok_bind]
      simp only [List.foldlM_cons, List.foldlM_nil, add32_ok (show lo + n < 2 ^ 32 by omega), ok_bind, Nat.add_zero]
      have hl : (stamp T lo n v).length = T.length := by simp [stamp]
      by_cases h2 : lo + n < T.length
      · rw [setIdx_ok (by rw [hl]; exact h2), if_pos (.inr (by omega))]
        simp only [ok_bind, pure_eq_ok]
        congr 1
        apply List.ext_getElem?
        intro j
        rw [stamp_get, List.getElem?_set, stamp_get]
        by_cases hj : lo + n = j
        · subst hj
          rw [if_pos rfl, if_pos (by rw [hl]; exact h2), List.getElem?_eq_getElem h2]
          simp only [Option.map_some]
          rw [if_pos (by omega)]
        · rw [if_neg hj]
          cases T[j]? with
          | none => rfl
          | some x =>
            simp only [Option.map_some]
            congr 1
            by_cases h3 : lo ≤ j ∧ j < lo + n
            · rw [if_pos h3, if_pos (by omega)]
            · rw [if_neg h3, if_neg (by omega)]
      · rw [setIdx_bad _ (by rw [hl]; omega), if_neg (by omega)]
        rfl
    · rw [if_neg h1, if_neg (by omega)]
      rfl

theorem shortRoom {T : List Nat} {code bits w s : Nat} (hb : bits ≤ w) (hw : w ≤ 10) :
    fillLut .msb T 0 code bits w s false =
      if code * 2 ^ (w - bits) % 2 ^ 32 + 2 ^ (w - bits) ≤ T.length then
        .ok (stamp T (code * 2 ^ (w - bits) % 2 ^ 32) (2 ^ (w - bits)) (leafVal s bits))
      else .error .index := by
  have hpos := Nat.two_pow_pos (w - bits)
  have hle : code * 2 ^ (w - bits) % 2 ^ 32 + 2 ^ (w - bits) ≤ 2 ^ 32 := by
    have e : 2 ^ 32 = 2 ^ (32 - (w - bits)) * 2 ^ (w - bits) := by rw [← Nat.pow_add]; congr 1; omega
    rw [e, Nat.mul_mod_mul_right, ← Nat.succ_mul]
    exact Nat.mul_le_mul_right _ (Nat.mod_lt _ (Nat.two_pow_pos _))
  simp only [fillLut, fillLutMsb, Bool.not_false, if_true, usub_ok hb, ok_bind,
    shl32_one (show w - bits < 32 by omega)]
  simp only [shl32, show w - bits < 32 by omega, if_true, ok_bind, Nat.shiftLeft_eq]
  rw [stampFold _ hle]
  by_cases h : code * 2 ^ (w - bits) % 2 ^ 32 + 2 ^ (w - bits) ≤ T.length
  · rw [if_pos h, if_pos (.inr h)]
  · rw [if_neg h, if_neg (by omega)]

/-- State of the second loop of `Codebook::new`. -/
structure RInv (N : Nat) (L : List Code) (M0 : EscapeCodes) (r : Space) (T : List Nat) (M : EscapeCodes) : Prop where
  cells : r.cells = T.length
  inUse : ∀ j, j ∈ r.inUse ↔ ∃ v, T[j]? = some v ∧ v ≠ FILL
  keys : M.map (·.1) = M0.map (·.1)
  bucket : ∀ kb ∈ M, IsBucket .msb L kb ∧ Roomy N 1 T.length kb.2

theorem longest_eq {m : Mode} {part : Desc S → Nat}
    (hp : ∀ d i, 10 < d.bits → part d = keyOf m ⟨d.code, d.bits, i⟩) (ds : List (Desc S)) (i k : Nat) :
    longest part ds k = maxlen (sub m (codesFrom i ds) k) := by
  have : ∀ i, (sub m (codesFrom i ds) k).map (·.bits) =
      (ds.filter fun d => decide (10 < d.bits) && decide (part d = k)).map (·.bits - 10) := by
    induction ds with
    | nil => intro i; rfl
    | cons d ds ih =>
      intro i
      by_cases h0 : d.bits = 0
      · simp only [codesFrom, h0, if_true]
        rw [List.filter_cons_of_neg (by simp [h0])]
        exact ih i
      · simp only [codesFrom, h0, if_false]
        by_cases h1 : 10 < d.bits ∧ part d = k
        · rw [List.filter_cons_of_pos (by simpa using h1), List.map_cons, ← ih (i + 1)]
          unfold sub
          rw [List.filter_cons_of_pos (by
            simp only [long, Bool.and_eq_true, decide_eq_true_eq]
            exact ⟨h1.1, (hp d i h1.1).symm.trans h1.2⟩)]
          rfl
        · rw [List.filter_cons_of_neg (by simpa using h1), ← ih (i + 1)]
          unfold sub
          rw [List.filter_cons_of_neg (by
            simp only [long, Bool.and_eq_true, decide_eq_true_eq]
            exact fun h => h1 ⟨h.1, (hp d i h.1).trans h.2⟩)]
  unfold longest maxlen
  rw [← List.foldl_map (f := fun d : Desc S => d.bits - 10) (g := max), ← this i, List.foldl_map]

theorem width_eq (ds : List (Desc S)) (i : Nat) :
    (used ds).foldl (fun a d => max a d.bits) 0 = maxlen (codesFrom i ds) := by
  have : ∀ i, (codesFrom i ds).map (·.bits) = (used ds).map (·.bits) := by
    induction ds with
    | nil => intro i; rfl
    | cons d ds ih =>
      intro i
      unfold used
      by_cases h0 : d.bits = 0
      · simp only [codesFrom, h0, if_true]
        rw [List.filter_cons_of_neg (by simp [h0])]
        exact ih i
      · simp only [codesFrom, h0, if_false]
        rw [List.filter_cons_of_pos (by simp; omega), List.map_cons, List.map_cons, ih (i + 1)]
        rfl
  unfold maxlen
  rw [← List.foldl_map (f := fun d : Desc S => d.bits) (g := max), ← this i, List.foldl_map]

/-- Tails are in range in MSB mode, whatever the codes are. -/
theorem sub_CW {N n : Nat} {L : List Code} (h : ∀ c ∈ L, c.bits ≤ n ∧ c.idx < N) (k : Nat) :
    CW N (n - 10) (sub .msb L k) := by
  intro c' hc'
  obtain ⟨c, hc, hb, _, rfl⟩ := mem_sub.mp hc'
  obtain ⟨h1, h2⟩ := h c hc
  exact ⟨by simp only [tailOf]; omega, by simp only [tailOf]; omega, Nat.mod_lt _ (Nat.two_pow_pos _), h2⟩

theorem fillRoom {N : Nat} (hN : N < 2 ^ 32) {all : List (Desc S)} {L : List Code} {M0 : EscapeCodes}
    (hwf : ∀ c ∈ L, 0 < c.bits ∧ c.bits ≤ 41 ∧ c.idx < N) (hM0 : Grouped .msb L M0) (hlen : L.length = N)
    (hall : L = codesFrom 0 all)
    (ds : List (Desc S)) (pre : List Code) (hL : pre ++ codesFrom pre.length ds = L)
    {r : Space} {T : List Nat} {M : EscapeCodes} (hR : RInv N L M0 r T M) :
    ((used ds).foldlM (Space.next all (nb L)) r = none →
      ds.foldlM (fillStep .msb (nb L)) ⟨T, M, pre.length⟩ = .error .index) ∧
    ∀ r', (used ds).foldlM (Space.next all (nb L)) r = some r' →
      ∃ T' M' n, ds.foldlM (fillStep .msb (nb L)) ⟨T, M, pre.length⟩ = .ok ⟨T', M', n⟩ ∧ RInv N L M0 r' T' M' := by
  induction ds generalizing pre r T M with
  | nil => exact ⟨fun h => (nomatch h), fun r' h => ⟨T, M, _, rfl, by cases h; exact hR⟩⟩
  | cons d ds ih =>
    by_cases h0 : d.bits = 0
    · simp only [codesFrom, h0, if_true] at hL
      have hu : used (d :: ds) = used ds := by unfold used; rw [List.filter_cons_of_neg (by simp [h0])]
      have hf : (d :: ds).foldlM (fillStep .msb (nb L)) ⟨T, M, pre.length⟩ =
          ds.foldlM (fillStep .msb (nb L)) ⟨T, M, pre.length⟩ := by
        simp only [List.foldlM_cons, fillStep, h0, if_true, ok_bind]
      rw [hu, hf]
      exact ih pre hL hR
    · simp only [codesFrom, h0, if_false] at hL
      have hu : used (d :: ds) = d :: used ds := by unfold used; rw [List.filter_cons_of_pos (by simp; omega)]
      have hc : (⟨d.code, d.bits, pre.length⟩ : Code) ∈ L := by rw [← hL]; simp
      obtain ⟨w1, w2, w3⟩ := hwf _ hc
      simp only at w1 w2 w3
      have hlt2 : pre.length + 1 < 2 ^ 32 := by omega
      have hlen' : (pre ++ [(⟨d.code, d.bits, pre.length⟩ : Code)]).length = pre.length + 1 := by simp
      have hL' : (pre ++ [(⟨d.code, d.bits, pre.length⟩ : Code)]) ++
          codesFrom (pre ++ [(⟨d.code, d.bits, pre.length⟩ : Code)]).length ds = L := by
        rw [hlen', List.append_assoc]; exact hL
      rw [hu, List.foldlM_cons]
      -- one entry makes room `r1`
      have step : ∀ {r1 : Space} {T1 : List Nat} {M1 : EscapeCodes},
          Space.next all (nb L) r d = some r1 →
          fillStep .msb (nb L) ⟨T, M, pre.length⟩ d = .ok ⟨T1, M1, pre.length + 1⟩ → RInv N L M0 r1 T1 M1 →
          ((Space.next all (nb L) r d >>= fun r => (used ds).foldlM (Space.next all (nb L)) r) = none →
            (d :: ds).foldlM (fillStep .msb (nb L)) ⟨T, M, pre.length⟩ = .error .index) ∧
          ∀ r', (Space.next all (nb L) r d >>= fun r => (used ds).foldlM (Space.next all (nb L)) r) = some r' →
            ∃ T' M' n, (d :: ds).foldlM (fillStep .msb (nb L)) ⟨T, M, pre.length⟩ = .ok ⟨T', M', n⟩ ∧
              RInv N L M0 r' T' M' := by
        intro r1 T1 M1 h1 h2 h3
        rw [h1, List.foldlM_cons, h2, ok_bind]
        have := ih _ hL' h3
        rw [hlen'] at this
        exact this
      have stop : Space.next all (nb L) r d = none →
          fillStep .msb (nb L) ⟨T, M, pre.length⟩ d = .error .index →
          ((Space.next all (nb L) r d >>= fun r => (used ds).foldlM (Space.next all (nb L)) r) = none →
            (d :: ds).foldlM (fillStep .msb (nb L)) ⟨T, M, pre.length⟩ = .error .index) ∧
          ∀ r', (Space.next all (nb L) r d >>= fun r => (used ds).foldlM (Space.next all (nb L)) r) = some r' →
            ∃ T' M' n, (d :: ds).foldlM (fillStep .msb (nb L)) ⟨T, M, pre.length⟩ = .ok ⟨T', M', n⟩ ∧
              RInv N L M0 r' T' M' := by
        intro h1 h2
        rw [h1, List.foldlM_cons, h2]
        exact ⟨fun _ => rfl, fun r' h => by cases h⟩
      by_cases hb : d.bits ≤ 10
      · have hsr := shortRoom (T := T) (code := d.code) (s := pre.length) (bits_le_nb hc hb) (nb_le L)
        have hfs : fillStep .msb (nb L) ⟨T, M, pre.length⟩ d =
            (fillLut .msb T 0 d.code d.bits (nb L) pre.length false >>= fun t => .ok ⟨t, M, pre.length + 1⟩) := by
          unfold fillStep
          rw [if_neg h0, if_pos (by simpa [MAX_LUT_BITS] using hb)]
          cases fillLut .msb T 0 d.code d.bits (nb L) pre.length false with
          | error p => rfl
          | ok t => simp only [ok_bind, pure_eq_ok, add32_ok hlt2]
        by_cases hroom : d.code * 2 ^ (nb L - d.bits) % 2 ^ 32 + 2 ^ (nb L - d.bits) ≤ T.length
        · refine step (by
            unfold Space.next
            rw [if_pos hb]
            simp only
            rw [if_pos (by rw [hR.cells]; exact hroom)]) (by rw [hfs, hsr, if_pos hroom]; rfl) ?_
          have hl : (stamp T (d.code * 2 ^ (nb L - d.bits) % 2 ^ 32) (2 ^ (nb L - d.bits))
              (leafVal pre.length d.bits)).length = T.length := by simp [stamp]
          refine ⟨by rw [hl]; exact hR.cells, ?_, hR.keys, by rw [hl]; exact hR.bucket⟩
          intro j
          simp only [List.mem_append, List.mem_map, List.mem_range]
          rw [hR.inUse j, stamp_get]
          generalize d.code * 2 ^ (nb L - d.bits) % 2 ^ 32 = lo at *
          generalize 2 ^ (nb L - d.bits) = n at *
          constructor
          · rintro (⟨i, hi, rfl⟩ | ⟨v, hv, hne⟩)
            · rw [List.getElem?_eq_getElem (show lo + i < T.length by omega)]
              refine ⟨_, rfl, ?_⟩
              simp only
              rw [if_pos (by omega)]
              exact leafVal_ne _ hb
            · rw [hv]
              refine ⟨_, rfl, ?_⟩
              simp only
              split
              · exact leafVal_ne _ hb
              · exact hne
          · rintro ⟨v, hv, hne⟩
            by_cases hj : lo ≤ j ∧ j < lo + n
            · exact .inl ⟨j - lo, by omega, by omega⟩
            · right
              refine ⟨v, ?_, hne⟩
              cases hT : T[j]? with
              | none => rw [hT] at hv; cases hv
              | some x =>
                rw [hT, Option.map_some, if_neg hj] at hv
                exact hv
        · refine stop (by
            unfold Space.next
            rw [if_pos hb]
            simp only
            rw [if_neg (by rw [hR.cells]; exact hroom)]) (by rw [hfs, hsr, if_neg hroom]; rfl)
      · have hb' : 10 < d.bits := by omega
        have e1 := extractLut_ok (m := .msb) (c := ⟨d.code, d.bits, pre.length⟩) hb' w2
        simp only at e1
        have hkey : keyOf .msb ⟨d.code, d.bits, pre.length⟩ = firstPart d := rfl
        rw [hkey] at e1
        have hs : sub .msb L (firstPart d) ≠ [] := List.ne_nil_of_mem (mem_sub.mpr ⟨_, hc, hb', rfl, rfl⟩)
        have hlg : longest firstPart all (firstPart d) = maxlen (sub .msb L (firstPart d)) := by
          rw [longest_eq (m := .msb) (fun _ _ _ => rfl) all 0, hall]
        have hnx : Space.next all (nb L) r d = if firstPart d < r.cells then
            some (if firstPart d ∈ r.inUse then r
              else ⟨r.cells + 2 ^ min (longest firstPart all (firstPart d)) 10, firstPart d :: r.inUse⟩) else none := by
          unfold Space.next; rw [if_neg hb]
        rw [hR.cells] at hnx
        generalize firstPart d = key at *
        by_cases hroom : key < T.length
        · have hidx : idx T key = .ok T[key] := idx_ok hroom
          have hgt : T[key]? = some T[key] := List.getElem?_eq_getElem hroom
          have huse := hR.inUse key
          generalize T[key] = ent at hidx hgt
          by_cases hent : ent = FILL
          · have hnot : key ∉ r.inUse := by
              rw [huse]
              rintro ⟨v, hv, hne⟩
              rw [hgt] at hv
              cases hv
              exact hne hent
            have hget : ∃ b, EscapeCodes.get M key = some b := by
              cases hg : EscapeCodes.get M key with
              | some b => exact ⟨b, rfl⟩
              | none =>
                rw [get_none, hR.keys, ← get_none, hM0.get] at hg
                unfold bucketOf at hg
                rw [if_neg hs] at hg
                cases hg
            obtain ⟨b, hget⟩ := hget
            have hbk := hR.bucket _ (get_mem hget)
            have hnd : (M.map (·.1)).Nodup := by rw [hR.keys]; exact hM0.nodup
            have f1 := allocRoom1 (m := .msb) (T := T) (off := 0) (k := key) (by omega) b
            rw [Nat.zero_add] at f1
            have hpos := Nat.two_pow_pos (min b.maxlen 10)
            have hbm : b.maxlen = maxlen (sub .msb L key) := hbk.1.2.2
            refine step (r1 := ⟨T.length + 2 ^ min (longest firstPart all key) 10, key :: r.inUse⟩)
              (by rw [hnx, if_pos hroom, if_neg hnot]) (by
                unfold fillStep
                rw [if_neg h0, if_neg (by simpa [MAX_LUT_BITS] using hb)]
                simp only [e1, hidx, ok_bind, hent, if_true, hget, f1, pure_eq_ok, add32_ok hlt2]
                rfl) ?_
            refine ⟨by rw [hlg, ← hbm]; simp, ?_, by rw [put_keys]; exact hR.keys, ?_⟩
            · intro j
              simp only [List.mem_cons]
              rw [hR.inUse j, List.getElem?_set]
              by_cases hj : key = j
              · subst hj
                rw [if_pos rfl, if_pos (by simp; omega)]
                exact ⟨fun _ => ⟨_, rfl, escVal_ne _ (by omega)⟩, fun _ => .inl rfl⟩
              · rw [if_neg hj]
                constructor
                · rintro (h | ⟨v, hv, hne⟩)
                  · exact absurd h.symm hj
                  · refine ⟨v, ?_, hne⟩
                    rw [List.getElem?_append_left (List.getElem?_eq_some_iff.mp hv).1]
                    exact hv
                · rintro ⟨v, hv, hne⟩
                  right
                  refine ⟨v, ?_, hne⟩
                  by_cases hj2 : j < T.length
                  · rw [List.getElem?_append_left hj2] at hv; exact hv
                  · rw [List.getElem?_append_right (by omega), List.getElem?_replicate] at hv
                    split at hv
                    · cases hv; exact absurd rfl hne
                    · cases hv
            · intro kb hkb
              simp only [List.length_set, List.length_append, List.length_replicate]
              rcases mem_put hnd hkb with rfl | ⟨_, h⟩
              · exact ⟨hbk.1, Roomy.alloc (kb := (key, b)) hbk.1
                  ((sub_CW (fun c h => ⟨(hwf c h).2.1, (hwf c h).2.2⟩) key).mono (by omega))⟩
              · exact ⟨(hR.bucket kb h).1, (hR.bucket kb h).2.mono (by omega)⟩
          · have hin : key ∈ r.inUse := huse.mpr ⟨ent, hgt, hent⟩
            refine step (r1 := r) (by rw [hnx, if_pos hroom, if_pos hin]) (by
                unfold fillStep
                rw [if_neg h0, if_neg (by simpa [MAX_LUT_BITS] using hb)]
                simp only [e1, hidx, ok_bind, hent, if_false, pure_eq_ok, add32_ok hlt2]) hR
        · refine stop (by rw [hnx, if_neg hroom]) ?_
          unfold fillStep
          rw [if_neg h0, if_neg (by simpa [MAX_LUT_BITS] using hb)]
          simp only [e1, ok_bind]
          have : idx T key = .error .index := by
            unfold idx
            rw [List.getElem?_eq_none (by omega)]
          rw [this]
          rfl

/-! ### The outcome -/

/-- **C82, partial (exact)** For descriptions in MSB mode of codes with at most 41 bits, with any bits above the length
of a code: construction panics, with an index out of bounds, exactly if at some entry there is no room for it, and
otherwise returns a book. The order of the hash maps makes no difference to that.
Missing for C82: codes out of range in LSB mode (`c82_lsb_exact_partial`). -/
theorem c82_msb_exact_partial (ord : Order) (hord : ord.Valid) (ds : List (Desc S)) (h41 : ∀ d ∈ ds, d.bits ≤ 41)
    (hn : (used ds).length < 2 ^ 32) (hne : used ds ≠ []) :
    (roomFor ds = none → new ord .msb ds = .error .index) ∧
    (roomFor ds ≠ none → ∃ cb, new ord .msb ds = .ok (.ok cb)) := by
  obtain ⟨M0, g1, g2⟩ := gatherFold (m := .msb) ds [] [] h41 (Grouped.nil .msb)
  simp only [List.nil_append, List.length_nil] at g1 g2
  have g1' : ds.foldlM (gatherStep .msb) { maxbits := 0, esc := [], symidx := 0 } = _ := g1
  have hwf : ∀ c ∈ codesFrom 0 ds, 0 < c.bits ∧ c.bits ≤ 41 ∧ c.idx < (used ds).length := by
    intro c hc
    obtain ⟨_, d, h1, h2, h3⟩ := mem_codesFrom hc
    have hm : d ∈ used ds := List.mem_of_getElem? h1
    have hlt := (List.getElem?_eq_some_iff.mp h1).1
    have hp : d.bits > 0 := by simpa [used] using (List.mem_filter.mp hm).2
    have := h41 d (List.mem_filter.mp hm).1
    rw [← h3]
    exact ⟨hp, this, by omega⟩
  have hL : codesFrom 0 ds ≠ [] := by
    intro h
    have := codesFrom_length 0 ds
    rw [h] at this
    exact hne (List.length_eq_zero_iff.mp this.symm)
  obtain ⟨c0, hc0⟩ := List.exists_mem_of_ne_nil _ hL
  have hml : 0 < maxlen (codesFrom 0 ds) := by
    have := le_maxlen hc0; have := (hwf c0 hc0).1; omega
  have hnb : (if maxlen (codesFrom 0 ds) > MAX_LUT_BITS then MAX_LUT_BITS else maxlen (codesFrom 0 ds)) =
      nb (codesFrom 0 ds) := by unfold nb MAX_LUT_BITS; split <;> omega
  have hT0 : (List.replicate (1 <<< nb (codesFrom 0 ds)) FILL).length = 2 ^ nb (codesFrom 0 ds) := by
    simp [Nat.shiftLeft_eq]
  have hR0 : RInv (used ds).length (codesFrom 0 ds) M0 ⟨2 ^ nb (codesFrom 0 ds), []⟩
      (List.replicate (1 <<< nb (codesFrom 0 ds)) FILL) M0 := by
    refine ⟨hT0.symm, ?_, rfl, ?_⟩
    · intro j
      refine ⟨fun h => (nomatch h), ?_⟩
      rintro ⟨v, hv, hne⟩
      rw [List.getElem?_replicate] at hv
      split at hv
      · cases hv; exact absurd rfl hne
      · cases hv
    · intro kb hkb
      have hb := isBuckets g2 kb hkb
      have hoff : kb.2.offset = 0 := by
        have := mem_get g2.nodup (show (kb.1, kb.2) ∈ M0 from hkb)
        rw [g2.get] at this
        exact bucketOf_offset this
      have hnb10 : nb (codesFrom 0 ds) = 10 := by
        obtain ⟨c', hc'⟩ := List.exists_mem_of_ne_nil _ hb.1
        obtain ⟨c, h1, h2, _⟩ := mem_sub.mp hc'
        exact nb_of_long h1 h2
      refine ⟨hb, by rw [hb.2.1]; exact hb.1, by rw [hb.2.1, hb.2.2], ?_, ?_⟩
      · rw [hb.2.1]
        exact sub_CW (fun c h => ⟨(hwf c h).2.1, (hwf c h).2.2⟩) kb.1
      · rw [hoff, hT0, hnb10]
        have := Nat.pow_le_pow_right (n := 2) (by omega) (nb_le kb.2.codes)
        omega
  have hfill := fillRoom hn hwf g2 (codesFrom_length 0 ds) rfl ds [] rfl hR0
  simp only [List.length_nil] at hfill
  have hroom : roomFor ds = (used ds).foldlM (Space.next ds (nb (codesFrom 0 ds))) ⟨2 ^ nb (codesFrom 0 ds), []⟩ := by
    unfold roomFor
    simp only [width_eq ds 0]
    rfl
  rw [hroom]
  constructor
  · intro h
    unfold new
    rw [g1']
    simp only [ok_bind, show ¬ maxlen (codesFrom 0 ds) = 0 by omega, if_false, hnb, hfill.1 h]
    rfl
  · intro h
    cases hr : (used ds).foldlM (Space.next ds (nb (codesFrom 0 ds))) ⟨2 ^ nb (codesFrom 0 ds), []⟩ with
    | none => exact absurd hr h
    | some r =>
      obtain ⟨T, M, n, f1, f2⟩ := hfill.2 r hr
      have hp1 := hord [] 1 M
      obtain ⟨T2, c1, _⟩ := foldRoom (ord [] 1 M) (d := 1)
        (build := fun t kb => buildEscLut ord .msb 26 [kb.1] t kb.2)
        (fun kb _ T h => buildRoom hord 26 1 (by omega) _ kb.2 T h)
        (fun kb h => (f2.bucket kb (hp1.mem_iff.mp h)).2)
      refine ⟨⟨T2, (used ds).map (·.sym), nb (codesFrom 0 ds)⟩, ?_⟩
      unfold new
      rw [g1']
      simp only [ok_bind, show ¬ maxlen (codesFrom 0 ds) = 0 by omega, if_false, hnb, f1, c1, pure_eq_ok]
      rfl

/-- The second code has a bit above its eleven. Behind one that needs 1024 further cells it is accepted, before it or
behind one that needs two it panics, and so does the one-bit code with a further bit in front of the long ones. -/
example : insOrder.Valid ∧ roomFor [(⟨0, 20, 0⟩ : Desc Nat), ⟨2048, 11, 1⟩] = some ⟨2050, [1024, 0]⟩ ∧
    roomFor [(⟨2048, 11, 1⟩ : Desc Nat), ⟨0, 20, 0⟩] = none ∧
    roomFor [(⟨0, 11, 0⟩ : Desc Nat), ⟨2052, 11, 1⟩] = none ∧
    (roomFor [(⟨0, 20, 0⟩ : Desc Nat), ⟨2, 1, 1⟩]).isSome = true ∧
    roomFor [(⟨2, 1, 1⟩ : Desc Nat), ⟨0, 20, 0⟩] = none :=
  ⟨insOrder_valid, by decide +kernel, by decide +kernel, by decide +kernel, by decide +kernel, by decide +kernel⟩

example : new insOrder .msb [(⟨2048, 11, 1⟩ : Desc Nat), ⟨0, 20, 0⟩] = .error .index ∧
    ∃ cb, new insOrder .msb [(⟨0, 20, 0⟩ : Desc Nat), ⟨2048, 11, 1⟩] = .ok (.ok cb) :=
  ⟨(c82_msb_exact_partial _ insOrder_valid _ (by decide) (by decide) (by decide)).1 (by decide +kernel),
    (c82_msb_exact_partial _ insOrder_valid _ (by decide) (by decide) (by decide)).2 (by decide +kernel)⟩

end Verif.Codebook
