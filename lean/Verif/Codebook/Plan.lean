import Verif.Codebook.Beyond

/-!
# Property C82 in LSB mode: exactly when `Codebook::new` panics

`c82_lsb_exact_partial` decides the outcome for every description in LSB mode with lengths of at most 20 bits, whatever
bits the codes have above their lengths. (With longer ones the order of the hash maps can decide, `c82_lsb_order_fails`.)
-/

namespace Verif.Codebook
open Verif Verif.BitRead

/-- What the outcome depends on: how many cells the table has so far, which of them are in use, and where the cells
for the tails of the codes with the same first ten bits begin. -/
structure Plan where
  cells : Nat
  inUse : List Nat
  starts : List (Nat × Nat)
  deriving DecidableEq, Repr

/-- The first ten bits of a code. -/
def firstTen (d : Desc S) : Nat := d.code % 2 ^ 10

/-- The next entry, of the description `ds` with a first part of the table for `w` bits: a code of at most `w ≤ 10`
bits needs every `2 ^ bits`-th cell from its own on, up to `2 ^ w` cells away; a longer code needs new cells unless its
cell is in use. -/
def Plan.next (ds : List (Desc S)) (w : Nat) (p : Plan) (d : Desc S) : Option Plan :=
  if d.bits ≤ 10 then
    if d.code + (2 ^ w - 2 ^ d.bits) < p.cells then
      some { p with inUse := (List.range (2 ^ (w - d.bits))).map (fun j => d.code + j * 2 ^ d.bits) ++ p.inUse }
    else none
  else
    some (if firstTen d ∈ p.inUse then p
      else ⟨p.cells + 2 ^ min (longest firstTen ds (firstTen d)) 10, firstTen d :: p.inUse,
        (firstTen d, p.cells) :: p.starts⟩)

/-- Where the cells for the tails behind `k` begin: at the beginning of the table if there are none. -/
def Plan.start (p : Plan) (k : Nat) : Nat := (p.starts.lookup k).getD 0

/-- Of a code of more than ten bits, the tail needs cells within the table. -/
def Plan.tailFits (ds : List (Desc S)) (p : Plan) (d : Desc S) : Bool :=
  decide (d.bits ≤ 10) ||
    decide (p.start (firstTen d) + d.code / 2 ^ 10 + (2 ^ min (longest firstTen ds (firstTen d)) 10 - 2 ^ (d.bits - 10)) <
      p.cells)

/-- There are cells for all entries and then for all tails. -/
def planned (ds : List (Desc S)) : Bool :=
  let w := min ((used ds).foldl (fun a d => max a d.bits) 0) 10
  match (used ds).foldlM (Plan.next ds w) ⟨2 ^ w, [], []⟩ with
  | none => false
  | some p => (used ds).all (p.tailFits ds)

/-! ### Writing every `2 ^ bits`-th cell -/

theorem stripeFold {T : List Nat} {off code bits n v : Nat} (hc : code < 2 ^ 32) (hT : T.length ≤ 2 ^ 31)
    (hn : n * 2 ^ bits ≤ 1024) (hbits : bits ≤ 10) :
    (n = 0 ∨ off + code + (n - 1) * 2 ^ bits < T.length →
      ∃ T', (List.range n).foldlM (init := T) (fun t j => do
          let u ← shl32 j bits
          let i ← add32 code u
          setIdx t (i + off) v) = .ok T' ∧ T'.length = T.length ∧
        (∀ j, j < n → T'[off + code + j * 2 ^ bits]? = some v) ∧
        ∀ i, (∀ j, j < n → i ≠ off + code + j * 2 ^ bits) → T'[i]? = T[i]?) ∧
    (¬ (n = 0 ∨ off + code + (n - 1) * 2 ^ bits < T.length) →
      (List.range n).foldlM (init := T) (fun t j => do
          let u ← shl32 j bits
          let i ← add32 code u
          setIdx t (i + off) v) = .error .index) := by
  induction n with
  | zero => exact ⟨fun _ => ⟨T, rfl, rfl, fun j hj => absurd hj (by omega), fun _ _ => rfl⟩, fun h => absurd (.inl rfl) h⟩
  | succ n ih =>
    have hpos := Nat.two_pow_pos bits
    rw [Nat.succ_mul] at hn
    obtain ⟨ih1, ih2⟩ := ih (by omega)
    have hsub : (n - 1) * 2 ^ bits = n * 2 ^ bits - 2 ^ bits := by rw [Nat.sub_mul, Nat.one_mul]
    have hge : n = 0 ∨ 2 ^ bits ≤ n * 2 ^ bits := by
      rcases Nat.eq_zero_or_pos n with h | h
      · exact .inl h
      · exact .inr (Nat.le_mul_of_pos_left _ h)
    have hz : n = 0 → n * 2 ^ bits = 0 := by rintro rfl; simp
    rw [hsub] at ih1 ih2
    rw [List.range_succ, List.foldlM_append, Nat.add_sub_cancel]
    have hshl : shl32 n bits = .ok (n * 2 ^ bits) := by
      unfold shl32
      rw [if_pos (by omega), Nat.shiftLeft_eq, Nat.mod_eq_of_lt (by omega)]
    by_cases h1 : n = 0 ∨ off + code + (n * 2 ^ bits - 2 ^ bits) < T.length
    · obtain ⟨T1, a1, a2, a3, a4⟩ := ih1 h1
      rw [a1, ok_bind]
      simp only [List.foldlM_cons, List.foldlM_nil, hshl, ok_bind,
        add32_ok (show code + n * 2 ^ bits < 2 ^ 32 by omega)]
      rw [show code + n * 2 ^ bits + off = off + code + n * 2 ^ bits by omega]
      constructor
      · rintro (h | h)
        · omega
        · rw [setIdx_ok (by rw [a2]; exact h)]
          refine ⟨_, rfl, by rw [List.length_set, a2], ?_, ?_⟩
          · intro j hj
            rw [List.getElem?_set]
            by_cases e : off + code + n * 2 ^ bits = off + code + j * 2 ^ bits
            · rw [if_pos e, if_pos (by rw [a2]; exact h)]
            · rw [if_neg e]
              refine a3 j ?_
              rcases Nat.lt_or_ge j n with h' | h'
              · exact h'
              · exact absurd (by rw [show j = n by omega]) e
          · intro i hi
            rw [List.getElem?_set, if_neg (fun e => hi n (by omega) e.symm)]
            exact a4 i (fun j hj => hi j (by omega))
      · intro h
        rw [setIdx_bad _ (by rw [a2]; omega)]
        rfl
    · rw [ih2 h1]
      refine ⟨fun h => ?_, fun _ => rfl⟩
      exfalso
      omega

theorem stripe {T : List Nat} {off code bits w s : Nat} (hb : bits ≤ w) (hw : w ≤ 10) (hc : code < 2 ^ 32)
    (hT : T.length ≤ 2 ^ 31) :
    (off + code + (2 ^ w - 2 ^ bits) < T.length →
      ∃ T', fillLut .lsb T off code bits w s false = .ok T' ∧ T'.length = T.length ∧
        (∀ j, j < 2 ^ (w - bits) → T'[off + code + j * 2 ^ bits]? = some (leafVal s bits)) ∧
        ∀ i, (∀ j, j < 2 ^ (w - bits) → i ≠ off + code + j * 2 ^ bits) → T'[i]? = T[i]?) ∧
    (¬ off + code + (2 ^ w - 2 ^ bits) < T.length → fillLut .lsb T off code bits w s false = .error .index) := by
  have hpos := Nat.two_pow_pos (w - bits)
  have e : 2 ^ (w - bits) * 2 ^ bits = 2 ^ w := by rw [← Nat.pow_add]; congr 1; omega
  have h10 : 2 ^ w ≤ 2 ^ 10 := Nat.pow_le_pow_right (by omega) hw
  have := stripeFold (T := T) (off := off) (code := code) (bits := bits) (n := 2 ^ (w - bits))
    (v := leafVal s bits) hc hT (by omega) (by omega)
  rw [Nat.sub_mul, e, Nat.one_mul] at this
  have hf : fillLut .lsb T off code bits w s false =
      (List.range (2 ^ (w - bits))).foldlM (init := T) (fun t j => do
          let u ← shl32 j bits
          let i ← add32 code u
          setIdx t (i + off) (leafVal s bits)) := by
    simp only [fillLut, fillLutLsb, Bool.not_false, if_true, usub_ok hb, ok_bind,
      shl32_one (show w - bits < 32 by omega), usub_ok (Nat.sub_le w bits),
      show w - (w - bits) = bits by omega]
  rw [hf]
  exact ⟨fun h => this.1 (.inr h), fun h => this.2 (by omega)⟩

/-! ### `build_esc_lut` without further levels -/

theorem escPlan {off w : Nat} (hw : w ≤ 10) (L : List Code)
    (hL : ∀ c ∈ L, c.bits ≤ w ∧ c.code < 2 ^ 32) {T : List Nat} (hT : T.length ≤ 2 ^ 31) :
    ((∀ c ∈ L, off + c.code + (2 ^ w - 2 ^ c.bits) < T.length) →
      ∃ T', L.foldlM (escStep .lsb off w) (T, []) = .ok (T', []) ∧ T'.length = T.length) ∧
    ((∃ c ∈ L, ¬ off + c.code + (2 ^ w - 2 ^ c.bits) < T.length) →
      L.foldlM (escStep .lsb off w) (T, []) = .error .index) := by
  induction L generalizing T with
  | nil => exact ⟨fun _ => ⟨T, rfl, rfl⟩, fun ⟨c, hc, _⟩ => (nomatch hc)⟩
  | cons c L ih =>
    obtain ⟨h1, h2⟩ := hL c (by simp)
    obtain ⟨s1, s2⟩ := stripe (T := T) (off := off) (s := c.idx % 2 ^ 32) h1 hw h2 hT
    have hfs : escStep .lsb off w (T, []) c =
        (fillLut .lsb T off c.code c.bits w (c.idx % 2 ^ 32) false >>= fun t => .ok (t, [])) := by
      unfold escStep
      rw [if_pos (by simp only [MAX_LUT_BITS]; omega)]
      rfl
    rw [List.foldlM_cons, hfs]
    by_cases hr : off + c.code + (2 ^ w - 2 ^ c.bits) < T.length
    · obtain ⟨T1, a1, a2, _⟩ := s1 hr
      rw [a1, ok_bind, ok_bind]
      obtain ⟨b1, b2⟩ := ih (fun c h => hL c (by simp [h])) (T := T1) (by rw [a2]; exact hT)
      rw [a2] at b1 b2
      refine ⟨fun h => b1 fun c hc => h c (by simp [hc]), ?_⟩
      rintro ⟨c', hc', hn⟩
      rcases List.mem_cons.mp hc' with rfl | hc'
      · exact absurd hr hn
      · exact b2 ⟨c', hc', hn⟩
    · rw [s2 hr]
      exact ⟨fun h => absurd (h c (by simp)) hr, fun _ => rfl⟩

theorem buildPlan {ord : Order} (hord : ord.Valid) (fuel : Nat) (path : List Nat) {b : CodeBucket} {T : List Nat}
    (hm : b.maxlen = maxlen b.codes) (hL : ∀ c ∈ b.codes, c.bits ≤ 10 ∧ c.code < 2 ^ 32) (hT : T.length ≤ 2 ^ 31) :
    ((∀ c ∈ b.codes, b.offset + c.code + (2 ^ min b.maxlen 10 - 2 ^ c.bits) < T.length) →
      ∃ T', buildEscLut ord .lsb (fuel + 1) path T b = .ok T' ∧ T'.length = T.length) ∧
    ((∃ c ∈ b.codes, ¬ b.offset + c.code + (2 ^ min b.maxlen 10 - 2 ^ c.bits) < T.length) →
      buildEscLut ord .lsb (fuel + 1) path T b = .error .index) := by
  have h0 : ∀ n, ord path n [] = [] := fun n => List.perm_nil.mp (hord path n [])
  obtain ⟨h1, h2⟩ := escPlan (off := b.offset) (w := min b.maxlen 10) (by omega) b.codes (T := T)
    (fun c hc => ⟨by have := le_maxlen hc; have := (hL c hc).1; omega, (hL c hc).2⟩) hT
  constructor
  · intro h
    obtain ⟨T', a1, a2⟩ := h1 h
    refine ⟨T', ?_, a2⟩
    simp only [buildEscLut, show MAX_LUT_BITS = 10 from rfl, a1, ok_bind, h0, List.foldlM_nil, pure_eq_ok]
  · intro h
    simp only [buildEscLut, show MAX_LUT_BITS = 10 from rfl, h2 h]
    rfl

/-- The same of all buckets, in any order. -/
theorem foldPlan {build : List Nat → Nat × CodeBucket → Rust (List Nat)} {n : Nat} (fits : Nat × CodeBucket → Prop)
    (Q : EscapeCodes)
    (hb : ∀ kb ∈ Q, ∀ (T : List Nat), T.length = n →
      (fits kb → ∃ T', build T kb = .ok T' ∧ T'.length = n) ∧ (¬ fits kb → build T kb = .error .index))
    {T : List Nat} (hT : T.length = n) :
    ((∀ kb ∈ Q, fits kb) → ∃ T', Q.foldlM build T = .ok T' ∧ T'.length = n) ∧
    ((∃ kb ∈ Q, ¬ fits kb) → Q.foldlM build T = .error .index) := by
  induction Q generalizing T with
  | nil => exact ⟨fun _ => ⟨T, rfl, hT⟩, fun ⟨_, h, _⟩ => (nomatch h)⟩
  | cons kb Q ih =>
    obtain ⟨h1, h2⟩ := hb kb (by simp) T hT
    rw [List.foldlM_cons]
    by_cases hf : fits kb
    · obtain ⟨T1, a1, a2⟩ := h1 hf
      obtain ⟨b1, b2⟩ := ih (fun kb' h => hb kb' (by simp [h])) a2
      rw [a1, ok_bind]
      refine ⟨fun h => b1 fun kb' hk => h kb' (by simp [hk]), ?_⟩
      rintro ⟨kb', hk, hn⟩
      rcases List.mem_cons.mp hk with rfl | hk
      · exact absurd hf hn
      · exact b2 ⟨kb', hk, hn⟩
    · rw [h2 hf]
      exact ⟨fun h => absurd (h kb (by simp)) hf, fun _ => rfl⟩

/-! ### The second loop of `Codebook::new` -/

structure LsbInv (L : List Code) (M0 : EscapeCodes) (p : Plan) (T : List Nat) (M : EscapeCodes) : Prop where
  cells : p.cells = T.length
  inUse : ∀ j, j ∈ p.inUse ↔ ∃ v, T[j]? = some v ∧ v ≠ FILL
  keys : M.map (·.1) = M0.map (·.1)
  bucket : ∀ kb ∈ M, IsBucket .lsb L kb ∧ kb.2.offset = p.start kb.1
  nodup : (p.starts.map (·.1)).Nodup
  used : ∀ k ∈ p.starts.map (·.1), k < 1024 ∧ k ∈ p.inUse
  ge : 2 ^ nb L ≤ T.length
  le : T.length ≤ 1024 + 1024 * p.starts.length

theorem LsbInv.bound {L : List Code} {M0 M : EscapeCodes} {p : Plan} {T : List Nat} (h : LsbInv L M0 p T M) :
    T.length ≤ 2 ^ 21 := by
  have := nodup_subset_length (l' := List.range 1024) h.nodup (fun k hk => List.mem_range.mpr (h.used k hk).1)
  rw [List.length_map, List.length_range] at this
  have := h.le
  omega

theorem fillPlan {N : Nat} (hN : N < 2 ^ 32) {all : List (Desc S)} {L : List Code} {M0 : EscapeCodes}
    (hwf : ∀ c ∈ L, 0 < c.bits ∧ c.bits ≤ 20 ∧ c.code < 2 ^ 32) (hM0 : Grouped .lsb L M0) (hlen : L.length = N)
    (hall : L = codesFrom 0 all)
    (ds : List (Desc S)) (pre : List Code) (hL : pre ++ codesFrom pre.length ds = L)
    {r : Plan} {T : List Nat} {M : EscapeCodes} (hR : LsbInv L M0 r T M) :
    ((used ds).foldlM (Plan.next all (nb L)) r = none →
      ds.foldlM (fillStep .lsb (nb L)) ⟨T, M, pre.length⟩ = .error .index) ∧
    ∀ r', (used ds).foldlM (Plan.next all (nb L)) r = some r' →
      ∃ T' M' n, ds.foldlM (fillStep .lsb (nb L)) ⟨T, M, pre.length⟩ = .ok ⟨T', M', n⟩ ∧ LsbInv L M0 r' T' M' := by
  induction ds generalizing pre r T M with
  | nil => exact ⟨fun h => (nomatch h), fun r' h => ⟨T, M, _, rfl, by cases h; exact hR⟩⟩
  | cons d ds ih =>
    by_cases h0 : d.bits = 0
    · simp only [codesFrom, h0, if_true] at hL
      have hu : used (d :: ds) = used ds := by unfold used; rw [List.filter_cons_of_neg (by simp [h0])]
      have hf : (d :: ds).foldlM (fillStep .lsb (nb L)) ⟨T, M, pre.length⟩ =
          ds.foldlM (fillStep .lsb (nb L)) ⟨T, M, pre.length⟩ := by
        simp only [List.foldlM_cons, fillStep, h0, if_true, ok_bind]
      rw [hu, hf]
      exact ih pre hL hR
    · simp only [codesFrom, h0, if_false] at hL
      have hu : used (d :: ds) = d :: used ds := by unfold used; rw [List.filter_cons_of_pos (by simp; omega)]
      have hc : (⟨d.code, d.bits, pre.length⟩ : Code) ∈ L := by rw [← hL]; simp
      obtain ⟨w1, w2, w3⟩ := hwf _ hc
      simp only at w1 w2 w3
      have hpl : pre.length < L.length := by rw [← hL]; simp
      have hlt2 : pre.length + 1 < 2 ^ 32 := by omega
      have hlen' : (pre ++ [(⟨d.code, d.bits, pre.length⟩ : Code)]).length = pre.length + 1 := by simp
      have hL' : (pre ++ [(⟨d.code, d.bits, pre.length⟩ : Code)]) ++
          codesFrom (pre ++ [(⟨d.code, d.bits, pre.length⟩ : Code)]).length ds = L := by
        rw [hlen', List.append_assoc]; exact hL
      have hbd := hR.bound
      rw [hu, List.foldlM_cons]
      have step : ∀ {r1 : Plan} {T1 : List Nat} {M1 : EscapeCodes},
          Plan.next all (nb L) r d = some r1 →
          fillStep .lsb (nb L) ⟨T, M, pre.length⟩ d = .ok ⟨T1, M1, pre.length + 1⟩ → LsbInv L M0 r1 T1 M1 →
          ((Plan.next all (nb L) r d >>= fun r => (used ds).foldlM (Plan.next all (nb L)) r) = none →
            (d :: ds).foldlM (fillStep .lsb (nb L)) ⟨T, M, pre.length⟩ = .error .index) ∧
          ∀ r', (Plan.next all (nb L) r d >>= fun r => (used ds).foldlM (Plan.next all (nb L)) r) = some r' →
            ∃ T' M' n, (d :: ds).foldlM (fillStep .lsb (nb L)) ⟨T, M, pre.length⟩ = .ok ⟨T', M', n⟩ ∧
              LsbInv L M0 r' T' M' := by
        intro r1 T1 M1 h1 h2 h3
        rw [h1, List.foldlM_cons, h2, ok_bind]
        have := ih _ hL' h3
        rw [hlen'] at this
        exact this
      by_cases hb : d.bits ≤ 10
      · obtain ⟨s1, s2⟩ := stripe (T := T) (off := 0) (code := d.code) (s := pre.length) (bits_le_nb hc hb) (nb_le L)
          w3 (by omega)
        simp only [Nat.zero_add] at s1 s2
        have hfs : fillStep .lsb (nb L) ⟨T, M, pre.length⟩ d =
            (fillLut .lsb T 0 d.code d.bits (nb L) pre.length false >>= fun t => .ok ⟨t, M, pre.length + 1⟩) := by
          unfold fillStep
          rw [if_neg h0, if_pos (by simpa [MAX_LUT_BITS] using hb)]
          cases fillLut .lsb T 0 d.code d.bits (nb L) pre.length false with
          | error p => rfl
          | ok t => simp only [ok_bind, pure_eq_ok, add32_ok hlt2]
        by_cases hroom : d.code + (2 ^ nb L - 2 ^ d.bits) < T.length
        · obtain ⟨T1, a1, a2, a3, a4⟩ := s1 hroom
          refine step (by
            unfold Plan.next
            rw [if_pos hb, if_pos (by rw [hR.cells]; exact hroom)]) (by rw [hfs, a1]; rfl) ?_
          refine ⟨by rw [a2]; exact hR.cells, ?_, hR.keys, hR.bucket, hR.nodup, ?_, by rw [a2]; exact hR.ge,
            by rw [a2]; exact hR.le⟩
          · intro j
            simp only [List.mem_append, List.mem_map, List.mem_range]
            rw [hR.inUse j]
            constructor
            · rintro (⟨i, hi, rfl⟩ | ⟨v, hv, hne⟩)
              · exact ⟨_, a3 i hi, leafVal_ne _ hb⟩
              · by_cases hj : ∃ i, i < 2 ^ (nb L - d.bits) ∧ j = d.code + i * 2 ^ d.bits
                · obtain ⟨i, hi, rfl⟩ := hj
                  exact ⟨_, a3 i hi, leafVal_ne _ hb⟩
                · exact ⟨v, by rw [a4 j (fun i hi e => hj ⟨i, hi, e⟩)]; exact hv, hne⟩
            · rintro ⟨v, hv, hne⟩
              by_cases hj : ∃ i, i < 2 ^ (nb L - d.bits) ∧ j = d.code + i * 2 ^ d.bits
              · obtain ⟨i, hi, rfl⟩ := hj
                exact .inl ⟨i, hi, rfl⟩
              · right
                rw [a4 j (fun i hi e => hj ⟨i, hi, e⟩)] at hv
                exact ⟨v, hv, hne⟩
          · intro k hk
            have := hR.used k hk
            exact ⟨this.1, List.mem_append.mpr (.inr this.2)⟩
        · have hnone : Plan.next all (nb L) r d = none := by
            unfold Plan.next
            rw [if_pos hb, if_neg (by rw [hR.cells]; exact hroom)]
          rw [hnone, List.foldlM_cons, hfs, s2 hroom]
          exact ⟨fun _ => rfl, fun r' h => (nomatch h)⟩
      · have hb' : 10 < d.bits := by omega
        have e1 := extractLut_ok (m := .lsb) (c := ⟨d.code, d.bits, pre.length⟩) hb' (by simp only [maxLen]; omega)
        simp only at e1
        have hkey : keyOf .lsb ⟨d.code, d.bits, pre.length⟩ = firstTen d := rfl
        rw [hkey] at e1
        have hs : sub .lsb L (firstTen d) ≠ [] := List.ne_nil_of_mem (mem_sub.mpr ⟨_, hc, hb', rfl, rfl⟩)
        have hlg : longest firstTen all (firstTen d) = maxlen (sub .lsb L (firstTen d)) := by
          rw [longest_eq (m := .lsb) (fun _ _ _ => rfl) all 0, hall]
        have hk : firstTen d < 1024 := Nat.mod_lt _ (by omega)
        have hnx : Plan.next all (nb L) r d =
            some (if firstTen d ∈ r.inUse then r
              else ⟨r.cells + 2 ^ min (longest firstTen all (firstTen d)) 10, firstTen d :: r.inUse,
                (firstTen d, r.cells) :: r.starts⟩) := by
          unfold Plan.next; rw [if_neg hb]
        have hge := hR.ge
        rw [nb_of_long hc hb'] at hge
        generalize firstTen d = key at *
        have hroom : key < T.length := by omega
        have hidx : idx T key = .ok T[key] := idx_ok hroom
        have hgt : T[key]? = some T[key] := List.getElem?_eq_getElem hroom
        have huse := hR.inUse key
        generalize T[key] = ent at hidx hgt
        by_cases hent : ent = FILL
        · have hnot : key ∉ r.inUse := by
            rw [huse]
            rintro ⟨v, hv, hne⟩
            rw [hgt] at hv
            cases hv
            exact hne hent
          have hget : ∃ b, EscapeCodes.get M key = some b := by
            cases hg : EscapeCodes.get M key with
            | some b => exact ⟨b, rfl⟩
            | none =>
              rw [get_none, hR.keys, ← get_none, hM0.get] at hg
              unfold bucketOf at hg
              rw [if_neg hs] at hg
              cases hg
          obtain ⟨b, hget⟩ := hget
          have hbk := hR.bucket _ (get_mem hget)
          have hnd : (M.map (·.1)).Nodup := by rw [hR.keys]; exact hM0.nodup
          have f1 := allocRoom1 (m := .lsb) (T := T) (off := 0) (k := key) (by omega) b
          rw [Nat.zero_add, Nat.mod_eq_of_lt (by omega)] at f1
          have hpos := Nat.two_pow_pos (min b.maxlen 10)
          have hpow : 2 ^ min b.maxlen 10 ≤ 2 ^ 10 := Nat.pow_le_pow_right (by omega) (Nat.min_le_right _ _)
          have hbm : b.maxlen = maxlen (sub .lsb L key) := hbk.1.2.2
          refine step (r1 := ⟨r.cells + 2 ^ min (longest firstTen all key) 10, key :: r.inUse,
              (key, r.cells) :: r.starts⟩)
            (by rw [hnx, if_neg hnot]) (by
              unfold fillStep
              rw [if_neg h0, if_neg (by simpa [MAX_LUT_BITS] using hb)]
              simp only [e1, hidx, ok_bind, hent, if_true, hget, f1, pure_eq_ok, add32_ok hlt2]
              rfl) ?_
          refine ⟨by rw [hlg, ← hbm, hR.cells]; simp, ?_, by rw [put_keys]; exact hR.keys, ?_, ?_, ?_,
            by have := hR.ge; simp only [List.length_set, List.length_append]; omega, ?_⟩
          · intro j
            simp only [List.mem_cons]
            rw [hR.inUse j, List.getElem?_set]
            by_cases hj : key = j
            · subst hj
              rw [if_pos rfl, if_pos (by simp; omega)]
              exact ⟨fun _ => ⟨_, rfl, escVal_ne _ (by omega)⟩, fun _ => .inl rfl⟩
            · rw [if_neg hj]
              constructor
              · rintro (h | ⟨v, hv, hne⟩)
                · exact absurd h.symm hj
                · refine ⟨v, ?_, hne⟩
                  rw [List.getElem?_append_left (List.getElem?_eq_some_iff.mp hv).1]
                  exact hv
              · rintro ⟨v, hv, hne⟩
                right
                refine ⟨v, ?_, hne⟩
                by_cases hj2 : j < T.length
                · rw [List.getElem?_append_left hj2] at hv; exact hv
                · rw [List.getElem?_append_right (by omega), List.getElem?_replicate] at hv
                  split at hv
                  · cases hv; exact absurd rfl hne
                  · cases hv
          · intro kb hkb
            rcases mem_put hnd hkb with rfl | ⟨hne, h⟩
            · refine ⟨hbk.1, ?_⟩
              simp only [Plan.start, List.lookup_cons, beq_self_eq_true, Option.getD_some]
              exact hR.cells.symm
            · refine ⟨(hR.bucket kb h).1, ?_⟩
              rw [(hR.bucket kb h).2]
              simp only [Plan.start, List.lookup_cons]
              rw [beq_false_of_ne hne]
          · simp only [List.map_cons, List.nodup_cons]
            exact ⟨fun h => hnot (hR.used key h).2, hR.nodup⟩
          · intro k hk'
            simp only [List.map_cons, List.mem_cons] at hk' ⊢
            rcases hk' with rfl | h
            · exact ⟨hk, .inl rfl⟩
            · exact ⟨(hR.used k h).1, .inr (hR.used k h).2⟩
          · have := hR.le
            simp only [List.length_set, List.length_append, List.length_replicate, List.length_cons]
            omega
        · have hin : key ∈ r.inUse := huse.mpr ⟨ent, hgt, hent⟩
          refine step (r1 := r) (by rw [hnx, if_pos hin]) (by
              unfold fillStep
              rw [if_neg h0, if_neg (by simpa [MAX_LUT_BITS] using hb)]
              simp only [e1, hidx, ok_bind, hent, if_false, pure_eq_ok, add32_ok hlt2]) hR

/-! ### The outcome -/

/-- **C82, partial (exact)** For descriptions in LSB mode of codes with at most 20 bits, with any bits above the length
of a code: construction panics, with an index out of bounds, exactly if there are no cells for an entry or for the
tail of one, and otherwise returns a book. The order of the hash maps makes no difference to that.
Missing for C82: codes out of range in LSB mode if one has more than 20 bits. -/
theorem c82_lsb_exact_partial (ord : Order) (hord : ord.Valid) (ds : List (Desc S)) (h20 : ∀ d ∈ ds, d.bits ≤ 20)
    (h32 : ∀ d ∈ ds, d.code < 2 ^ 32) (hn : (used ds).length < 2 ^ 32) (hne : used ds ≠ []) :
    (planned ds = false → new ord .lsb ds = .error .index) ∧
    (planned ds = true → ∃ cb, new ord .lsb ds = .ok (.ok cb)) := by
  obtain ⟨M0, g1, g2⟩ := gatherFold (m := .lsb) ds [] [] (fun d hd => by have := h20 d hd; simp only [maxLen]; omega)
    (Grouped.nil .lsb)
  simp only [List.nil_append, List.length_nil] at g1 g2
  have g1' : ds.foldlM (gatherStep .lsb) { maxbits := 0, esc := [], symidx := 0 } = _ := g1
  have hwf : ∀ c ∈ codesFrom 0 ds, 0 < c.bits ∧ c.bits ≤ 20 ∧ c.code < 2 ^ 32 := by
    intro c hc
    obtain ⟨_, d, h1, h2, h3⟩ := mem_codesFrom hc
    have hm : d ∈ used ds := List.mem_of_getElem? h1
    have hp : d.bits > 0 := by simpa [used] using (List.mem_filter.mp hm).2
    have := h20 d (List.mem_filter.mp hm).1
    have := h32 d (List.mem_filter.mp hm).1
    rw [← h3, ← h2]
    exact ⟨hp, by omega, by omega⟩
  have hL : codesFrom 0 ds ≠ [] := by
    intro h
    have := codesFrom_length 0 ds
    rw [h] at this
    exact hne (List.length_eq_zero_iff.mp this.symm)
  obtain ⟨c0, hc0⟩ := List.exists_mem_of_ne_nil _ hL
  have hml : 0 < maxlen (codesFrom 0 ds) := by
    have := le_maxlen hc0; have := (hwf c0 hc0).1; omega
  have hnb : (if maxlen (codesFrom 0 ds) > MAX_LUT_BITS then MAX_LUT_BITS else maxlen (codesFrom 0 ds)) =
      nb (codesFrom 0 ds) := by unfold nb MAX_LUT_BITS; split <;> omega
  have hT0 : (List.replicate (1 <<< nb (codesFrom 0 ds)) FILL).length = 2 ^ nb (codesFrom 0 ds) := by
    simp [Nat.shiftLeft_eq]
  have hR0 : LsbInv (codesFrom 0 ds) M0 ⟨2 ^ nb (codesFrom 0 ds), [], []⟩
      (List.replicate (1 <<< nb (codesFrom 0 ds)) FILL) M0 := by
    refine ⟨hT0.symm, ?_, rfl, ?_, List.nodup_nil, fun k h => (nomatch h), by rw [hT0]; exact Nat.le_refl _, ?_⟩
    · intro j
      refine ⟨fun h => (nomatch h), ?_⟩
      rintro ⟨v, hv, hne⟩
      rw [List.getElem?_replicate] at hv
      split at hv
      · cases hv; exact absurd rfl hne
      · cases hv
    · intro kb hkb
      have := mem_get g2.nodup (show (kb.1, kb.2) ∈ M0 from hkb)
      rw [g2.get] at this
      exact ⟨isBuckets g2 kb hkb, bucketOf_offset this⟩
    · rw [hT0]
      have := Nat.pow_le_pow_right (n := 2) (by omega) (nb_le (codesFrom 0 ds))
      simp only [List.length_nil]
      omega
  have hfill := fillPlan hn hwf g2 (codesFrom_length 0 ds) rfl ds [] rfl hR0
  simp only [List.length_nil] at hfill
  have hplan : planned ds =
      match (used ds).foldlM (Plan.next ds (nb (codesFrom 0 ds))) ⟨2 ^ nb (codesFrom 0 ds), [], []⟩ with
      | none => false
      | some p => (used ds).all (p.tailFits ds) := by
    unfold planned
    simp only [width_eq ds 0]
    rfl
  rw [hplan]
  cases hr : (used ds).foldlM (Plan.next ds (nb (codesFrom 0 ds))) ⟨2 ^ nb (codesFrom 0 ds), [], []⟩ with
  | none =>
    refine ⟨fun _ => ?_, fun h => (nomatch h)⟩
    unfold new
    rw [g1']
    simp only [ok_bind, show ¬ maxlen (codesFrom 0 ds) = 0 by omega, if_false, hnb, hfill.1 hr]
    rfl
  | some p =>
    obtain ⟨T, M, n, f1, f2⟩ := hfill.2 p hr
    have hbd := f2.bound
    have hp1 := hord [] 1 M
    let fits : Nat × CodeBucket → Prop := fun kb =>
      ∀ c ∈ kb.2.codes, kb.2.offset + c.code + (2 ^ min kb.2.maxlen 10 - 2 ^ c.bits) < T.length
    obtain ⟨c1, c2⟩ := foldPlan fits (ord [] 1 M) (n := T.length)
      (build := fun t kb => buildEscLut ord .lsb 26 [kb.1] t kb.2)
      (by
        intro kb hkb T1 hT1
        obtain ⟨b1, b2, b3⟩ := (f2.bucket kb (hp1.mem_iff.mp hkb)).1
        have := buildPlan hord 25 [kb.1] (b := kb.2) (T := T1) (by rw [b2, b3]) (by
          intro c' hc'
          rw [b2] at hc'
          obtain ⟨c, h1, h2, _, rfl⟩ := mem_sub.mp hc'
          obtain ⟨_, h3, h4⟩ := hwf c h1
          have : c.code / 2 ^ 10 ≤ c.code := Nat.div_le_self _ _
          exact ⟨by simp only [tailOf]; omega, by simp only [tailOf, rest]; omega⟩) (by omega)
        rw [hT1] at this
        refine ⟨this.1, fun h => this.2 ?_⟩
        simp only [fits] at h
        false_or_by_contra
        rename_i hno
        exact h fun c hc => Decidable.byContradiction fun hx => hno ⟨c, hc, hx⟩)
      (T := T) rfl
    -- the buckets' tails are those of the entries
    have hfits : ((used ds).all (p.tailFits ds) = true) ↔ ∀ kb ∈ ord [] 1 M, fits kb := by
      rw [List.all_eq_true]
      constructor
      · intro h kb hkb c' hc'
        have hkM := hp1.mem_iff.mp hkb
        obtain ⟨⟨b1, b2, b3⟩, b4⟩ := f2.bucket kb hkM
        rw [b2] at hc'
        obtain ⟨c, h1, h2, h3, rfl⟩ := mem_sub.mp hc'
        obtain ⟨_, d, d1, d2, d3⟩ := mem_codesFrom h1
        have := h d (List.mem_of_getElem? d1)
        unfold Plan.tailFits at this
        have hfd : firstTen d = kb.1 := by rw [← h3]; simp only [firstTen, d2]; rfl
        rw [hfd, longest_eq (m := .lsb) (fun _ _ _ => rfl) ds 0, f2.cells, d2, d3, ← b3, ← b4] at this
        simp only [Bool.or_eq_true, decide_eq_true_eq] at this
        simp only [tailOf, rest]
        omega
      · intro h d hd
        unfold Plan.tailFits
        by_cases hb : d.bits ≤ 10
        · simp [hb]
        obtain ⟨j, hj⟩ := List.getElem?_of_mem hd
        have hc := codesFrom_get (k := 0) hj
        have hs : sub .lsb (codesFrom 0 ds) (firstTen d) ≠ [] :=
          List.ne_nil_of_mem (mem_sub.mpr ⟨_, hc, by simp only; omega, rfl, rfl⟩)
        have hget : ∃ b, EscapeCodes.get M (firstTen d) = some b := by
          cases hg : EscapeCodes.get M (firstTen d) with
          | some b => exact ⟨b, rfl⟩
          | none =>
            rw [get_none, f2.keys, ← get_none, g2.get] at hg
            unfold bucketOf at hg
            rw [if_neg hs] at hg
            cases hg
        obtain ⟨b, hget⟩ := hget
        have hm := get_mem hget
        obtain ⟨⟨b1, b2, b3⟩, b4⟩ := f2.bucket _ hm
        have := h _ (hp1.mem_iff.mpr hm) (tailOf .lsb ⟨d.code, d.bits, 0 + j⟩)
          (by rw [b2]; exact mem_sub.mpr ⟨_, hc, by simp only; omega, rfl, rfl⟩)
        simp only at b3 b4 this
        rw [longest_eq (m := .lsb) (fun _ _ _ => rfl) ds 0, f2.cells, ← b3, ← b4]
        simp only [Bool.or_eq_true, decide_eq_true_eq]
        exact .inr this
    constructor
    · intro h
      have hx : ∃ kb ∈ ord [] 1 M, ¬ fits kb := by
        false_or_by_contra
        rename_i hno
        have := hfits.mpr fun kb hkb => Classical.byContradiction fun hx => hno ⟨kb, hkb, hx⟩
        simp only at h
        rw [h] at this
        cases this
      unfold new
      rw [g1']
      simp only [ok_bind, show ¬ maxlen (codesFrom 0 ds) = 0 by omega, if_false, hnb, f1, c2 hx]
      rfl
    · intro h
      obtain ⟨T2, a1, _⟩ := c1 (hfits.mp h)
      refine ⟨⟨T2, (used ds).map (·.sym), nb (codesFrom 0 ds)⟩, ?_⟩
      unfold new
      rw [g1']
      simp only [ok_bind, show ¬ maxlen (codesFrom 0 ds) = 0 by omega, if_false, hnb, f1, a1, pure_eq_ok]
      rfl

/-- The last code has a bit above its eleven. Its tail needs cells up to 1026 behind the 1024 first ones: there are as
many if other long codes follow. A one-bit code with a further bit is accepted behind a code that needs 1024 cells. -/
example : planned [(⟨0, 20, 0⟩ : Desc Nat), ⟨2048, 11, 1⟩] = false ∧
    planned [(⟨0, 20, 0⟩ : Desc Nat), ⟨1024, 11, 1⟩] = true ∧
    planned [(⟨0, 20, 0⟩ : Desc Nat), ⟨2048, 11, 1⟩, ⟨1, 12, 2⟩] = true ∧
    planned [(⟨1, 12, 2⟩ : Desc Nat), ⟨0, 20, 0⟩, ⟨2048, 11, 1⟩] = false ∧
    planned [(⟨0, 20, 0⟩ : Desc Nat), ⟨1024, 1, 1⟩] = true ∧
    planned [(⟨1024, 1, 1⟩ : Desc Nat), ⟨0, 20, 0⟩] = false :=
  ⟨by decide +kernel, by decide +kernel, by decide +kernel, by decide +kernel, by decide +kernel, by decide +kernel⟩

example : new insOrder .lsb [(⟨0, 20, 0⟩ : Desc Nat), ⟨2048, 11, 1⟩] = .error .index ∧
    ∃ cb, new insOrder .lsb [(⟨0, 20, 0⟩ : Desc Nat), ⟨2048, 11, 1⟩, ⟨1, 12, 2⟩] = .ok (.ok cb) :=
  ⟨(c82_lsb_exact_partial _ insOrder_valid _ (by decide) (by decide) (by decide) (by decide)).1 (by decide +kernel),
    (c82_lsb_exact_partial _ insOrder_valid _ (by decide) (by decide) (by decide) (by decide)).2 (by decide +kernel)⟩

/-- A book was built. -/
def built (x : Rust (Except CodebookError (Codebook S))) : Bool :=
  match x with
  | .ok (.ok _) => true
  | _ => false

/-- An index out of bounds. -/
def outOfBounds (x : Rust (Except CodebookError (Codebook S))) : Bool :=
  match x with
  | .error p => decide (p = .index)
  | _ => false

theorem built_ok {x : Rust (Except CodebookError (Codebook S))} (h : built x = true) : ∃ cb, x = .ok (.ok cb) := by
  unfold built at h
  split at h
  · exact ⟨_, rfl⟩
  · cases h

theorem outOfBounds_ok {x : Rust (Except CodebookError (Codebook S))} (h : outOfBounds x = true) :
    x = .error .index := by
  unfold outOfBounds at h
  split at h
  · rw [of_decide_eq_true h]
  · cases h

/-- **C82, false** in LSB mode also in this: with a code of more than 20 bits it can depend on the order of the hash
maps whether construction panics. The tail of the second code needs the cell 2050. The table has it if the third part
for the first code has been added before. -/
theorem c82_lsb_order_fails : ∃ (ord ord' : Order) (ds : List (Desc Nat)), ord.Valid ∧ ord'.Valid ∧
    ds = [⟨1, 21, 0⟩, ⟨2048, 11, 1⟩] ∧ (∃ cb, new ord .lsb ds = .ok (.ok cb)) ∧
    new ord' .lsb ds = .error .index := by
  exact ⟨insOrder, revOrder, _, insOrder_valid, revOrder_valid, rfl, built_ok (by decide +kernel),
    outOfBounds_ok (by decide +kernel)⟩

end Verif.Codebook
