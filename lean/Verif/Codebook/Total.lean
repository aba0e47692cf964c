import Verif.Codebook.Read

/-! # Helper lemmas: construction of a codebook from overlapping codes

Nothing here assumes the code to be prefix free. -/

namespace Verif.Codebook
open Verif Verif.BitRead

variable {B : Nat}

/-- Codes of at most `n` bits without bits above their length, for symbols below `N`. -/
def CW (N n : Nat) (L : List Code) : Prop :=
  ∀ c ∈ L, 0 < c.bits ∧ c.bits ≤ n ∧ c.code < 2 ^ c.bits ∧ c.idx < N

theorem CW.sub {N n : Nat} {m : Mode} {L : List Code} (h : CW N n L) (k : Nat) :
    CW N (n - 10) (sub m L k) := by
  intro c' hc'
  obtain ⟨c, hc, hb, _, rfl⟩ := mem_sub.mp hc'
  obtain ⟨h1, h2, h3, h4⟩ := h c hc
  exact ⟨by simp only [tailOf]; omega, by simp only [tailOf]; omega, rest_lt h3 (by omega), h4⟩

theorem CW.mono {N n n' : Nat} {L : List Code} (h : CW N n L) (hn : n ≤ n') : CW N n' L :=
  fun c hc => ⟨(h c hc).1, by have := (h c hc).2.1; omega, (h c hc).2.2⟩

/-- What an entry may hold: nothing, a symbol, or a reference to a part of the table farther down. -/
def Entry (N len : Nat) (dep : Nat → Nat) (i v : Nat) : Prop :=
  v = FILL ∨ (∃ s b, s < N ∧ 0 < b ∧ b ≤ 10 ∧ v = leafVal s b) ∨
  ∃ o w, w ≤ 10 ∧ o + 2 ^ w ≤ len ∧ v = escVal o w ∧ ∀ j, j < 2 ^ w → dep i < dep (o + j)

/-- The table as long as its offsets fit into 24 bits; `dep` is the level of an entry. -/
structure TInv (N B : Nat) (T : List Nat) (dep : Nat → Nat) : Prop where
  le : ∀ i, i < T.length → 10 * dep i < B
  entry : T.length ≤ 2 ^ 24 → ∀ i v, T[i]? = some v → Entry N T.length dep i v

theorem TInv.leaf {N : Nat} {T T' : List Nat} {dep : Nat → Nat} (h : TInv N B T dep) {s b : Nat}
    (hl : T'.length = T.length) (hs : s < N) (hb : 0 < b) (hb' : b ≤ 10)
    (hT : ∀ j : Nat, T'[j]? = T[j]? ∨ T'[j]? = some (leafVal s b)) : TInv N B T' dep := by
  refine ⟨by rw [hl]; exact h.le, ?_⟩
  rw [hl]
  intro hsz i v hv
  rcases hT i with h1 | h1
  · exact h.entry hsz i v (by rw [← h1]; exact hv)
  · rw [h1] at hv
    cases hv
    exact .inr (.inl ⟨s, b, hs, hb, hb', rfl⟩)

/-- A leaf is filled in wherever the part of the table lies. -/
theorem fillTotal1 {N : Nat} {m : Mode} {T : List Nat} {dep : Nat → Nat} (h : TInv N B T dep)
    {off code bits w s : Nat} (h0 : 0 < bits) (hb : bits ≤ w) (hw : w ≤ 10) (hc : code < 2 ^ bits)
    (hl : off + 2 ^ w ≤ T.length) (hs : s < N) :
    ∃ T', fillLut m T off code bits w s false = .ok T' ∧ T'.length = T.length ∧ TInv N B T' dep := by
  obtain ⟨T', f1, f2, f3, f4⟩ := fillLut_leaf (m := m) (t := T) (off := off) (s := s) hb hw hc hl
  refine ⟨T', f1, f2, h.leaf f2 hs h0 (by omega) ?_⟩
  intro j
  by_cases hj : ∃ i, i < 2 ^ w ∧ top m w bits i = code ∧ off + i = j
  · obtain ⟨i, h1, h2, rfl⟩ := hj
    exact .inr (f3 i h1 h2)
  · exact .inl (f4 j fun i h1 h2 h3 => hj ⟨i, h1, h2, h3⟩)

/-- The level of the entries after a new part of level `d` was appended. -/
def depApp (T : List Nat) (dep : Nat → Nat) (d : Nat) : Nat → Nat :=
  fun j => if j < T.length then dep j else d

theorem allocTotal1 {N : Nat} {m : Mode} {T : List Nat} {dep : Nat → Nat} (h : TInv N B T dep)
    {off k d : Nat} (hk : off + k < T.length) (hd : 10 * d < B)
    (hdk : T.length ≤ 2 ^ 24 → dep (off + k) < d) (b : CodeBucket) :
    ∃ T', allocBucket m T off k b = .ok (T', { b with offset := T.length % 2 ^ 32 }) ∧
      T'.length = T.length + 2 ^ min b.maxlen 10 ∧ TInv N B T' (depApp T dep d) := by
  have hpos := Nat.two_pow_pos (min b.maxlen 10)
  have hle := pow_le_1024 (show min b.maxlen 10 ≤ 10 by omega)
  refine ⟨(T ++ List.replicate (2 ^ min b.maxlen 10) FILL).set (off + k)
    (escVal (T.length % 2 ^ 32) (min b.maxlen 10)), ?_, by simp, ?_, ?_⟩
  · unfold allocBucket resizeTable
    rw [show MAX_LUT_BITS = 10 from rfl]
    simp only [shl32_one (show min b.maxlen 10 < 32 by omega), ok_bind, pure_eq_ok]
    rw [fillLut_esc (show off + k < (T ++ List.replicate (2 ^ min b.maxlen 10) FILL).length by
      simp; omega)]
    rfl
  · intro i _
    unfold depApp
    by_cases hi : i < T.length
    · rw [if_pos hi]; exact h.le i hi
    · rw [if_neg hi]; exact hd
  · simp only [List.length_set, List.length_append, List.length_replicate]
    intro hsz i v hv
    have hsz' : T.length ≤ 2 ^ 24 := by omega
    by_cases hi : i = off + k
    · subst hi
      rw [List.getElem?_set_self (by simp; omega)] at hv
      cases hv
      refine .inr (.inr ⟨T.length % 2 ^ 32, _, by omega, ?_, rfl, ?_⟩)
      · rw [Nat.mod_eq_of_lt (by omega)]; omega
      · intro j _
        rw [Nat.mod_eq_of_lt (by omega)]
        unfold depApp
        rw [if_pos hk, if_neg (by omega)]
        exact hdk hsz'
    · rw [List.getElem?_set_ne (Ne.symm hi)] at hv
      by_cases hi2 : i < T.length
      · rw [List.getElem?_append_left hi2] at hv
        rcases h.entry hsz' i v hv with h1 | h1 | ⟨o, w, h1, h2, h3, h4⟩
        · exact .inl h1
        · exact .inr (.inl h1)
        · refine .inr (.inr ⟨o, w, h1, by omega, h3, ?_⟩)
          intro j hj
          unfold depApp
          rw [if_pos hi2, if_pos (by omega)]
          exact h4 j hj
      · rw [List.getElem?_append_right (by omega), List.getElem?_replicate] at hv
        split at hv
        · cases hv; exact .inl rfl
        · cases hv

/-- A bucket of level `d` and the part of the table it writes to. -/
structure BOK (B N d : Nat) (T : List Nat) (dep : Nat → Nat) (b : CodeBucket) : Prop where
  ne : b.codes ≠ []
  ml : b.maxlen = maxlen b.codes
  cw : CW N (B - 10 * d) b.codes
  reg : b.offset + 2 ^ nb b.codes ≤ T.length
  dep : T.length ≤ 2 ^ 24 → ∀ i, i < 2 ^ nb b.codes → dep (b.offset + i) ≤ d

/-- The table only grows and levels stay. -/
def Ext (T : List Nat) (dep : Nat → Nat) (T' : List Nat) (dep' : Nat → Nat) : Prop :=
  T.length ≤ T'.length ∧ ∀ j, j < T.length → dep' j = dep j

theorem Ext.refl (T : List Nat) (dep : Nat → Nat) : Ext T dep T dep := ⟨Nat.le_refl _, fun _ _ => rfl⟩

theorem Ext.trans {T T' T'' : List Nat} {dep dep' dep'' : Nat → Nat} (h : Ext T dep T' dep')
    (h' : Ext T' dep' T'' dep'') : Ext T dep T'' dep'' := by
  have h1 := h.1
  have h2 := h'.1
  exact ⟨by omega, fun j hj => by rw [h'.2 j (by omega), h.2 j hj]⟩

theorem BOK.ext {N d : Nat} {T T' : List Nat} {dep dep' : Nat → Nat} {b : CodeBucket}
    (h : BOK B N d T dep b) (he : Ext T dep T' dep') : BOK B N d T' dep' b := by
  have h1 := he.1
  have h2 := h.reg
  refine ⟨h.ne, h.ml, h.cw, by omega, ?_⟩
  intro hsz i hi
  rw [he.2 _ (by omega)]
  exact h.dep (by omega) i hi

/-! ### `build_esc_lut` -/

theorem escTotal {N : Nat} (hN : N ≤ 2 ^ 32) {m : Mode} {L : List Code} (hwf : CW N (maxLen m) L)
    {off : Nat} {dep : Nat → Nat} (post pre : List Code) (hL : pre ++ post = L) {T : List Nat}
    {M : EscapeCodes} (hreg : off + 2 ^ nb L ≤ T.length) (hT : TInv N B T dep) (hM : Grouped m pre M) :
    ∃ T' M', post.foldlM (escStep m off (nb L)) (T, M) = .ok (T', M') ∧ T'.length = T.length ∧
      TInv N B T' dep ∧ Grouped m L M' := by
  induction post generalizing pre T M with
  | nil =>
    simp only [List.append_nil] at hL
    subst hL
    exact ⟨T, M, rfl, rfl, hT, hM⟩
  | cons c post ih =>
    have hc : c ∈ L := by rw [← hL]; simp
    obtain ⟨w1, w2, w3, w4⟩ := hwf c hc
    by_cases hb : c.bits ≤ 10
    · obtain ⟨T1, f1, f2, f3⟩ := fillTotal1 (m := m) hT (s := c.idx % 2 ^ 32) w1 (bits_le_nb hc hb)
        (nb_le L) w3 hreg (by rw [Nat.mod_eq_of_lt (by omega)]; exact w4)
      obtain ⟨T2, M2, a1, a2, a3⟩ := ih (pre ++ [c]) (by simp [hL]) (by rw [f2]; exact hreg) f3 (hM.short hb)
      refine ⟨T2, M2, ?_, by rw [a2, f2], a3⟩
      simp only [List.foldlM_cons, escStep, MAX_LUT_BITS, hb, if_true, f1, ok_bind, pure_eq_ok]
      exact a1
    · obtain ⟨T2, M2, a1, a2⟩ := ih (pre ++ [c]) (by simp [hL]) hreg hT (hM.long (by omega))
      refine ⟨T2, M2, ?_, a2⟩
      simp only [List.foldlM_cons, escStep, extractLut_ok (m := m) (show 10 < c.bits by omega) w2,
        extractEsc_ok (m := m) (show 10 < c.bits by omega) w2, ok_bind, pure_eq_ok]
      rw [if_neg (by simpa [MAX_LUT_BITS] using hb)]
      exact a1

/-- A nonempty bucket below a node of level `d` has a first code there. -/
theorem sub_level {N d : Nat} {m : Mode} {L : List Code} (hwf : CW N (B - 10 * d) L) {k : Nat}
    (h : sub m L k ≠ []) : nb L = 10 ∧ k < 2 ^ nb L ∧ 10 * (d + 1) < B := by
  obtain ⟨c', hc'⟩ := List.exists_mem_of_ne_nil _ h
  obtain ⟨c, h1, h2, h3, _⟩ := mem_sub.mp hc'
  have hn := nb_of_long h1 h2
  obtain ⟨w1, w2, w3, _⟩ := hwf c h1
  refine ⟨hn, ?_, by omega⟩
  rw [hn, ← h3]
  exact top_lt w3 (by omega)

/-- The bucket after its part of the table was allocated. -/
theorem BOK.alloc {N d : Nat} {m : Mode} {L : List Code} {T T' : List Nat} {dep : Nat → Nat}
    (hwf : CW N (B - 10 * d) L) {kb : Nat × CodeBucket} (hb : IsBucket m L kb)
    (hl : T'.length = T.length + 2 ^ min kb.2.maxlen 10) :
    BOK B N (d + 1) T' (depApp T dep (d + 1)) { kb.2 with offset := T.length % 2 ^ 32 } := by
  obtain ⟨b1, b2, b3⟩ := hb
  have hnb : min kb.2.maxlen 10 = nb kb.2.codes := by rw [b3, b2]; rfl
  have hmod := Nat.mod_le T.length (2 ^ 32)
  have hpos := Nat.two_pow_pos (min kb.2.maxlen 10)
  refine ⟨by simp only; rw [b2]; exact b1, by simp only; rw [b2, b3], ?_, ?_, ?_⟩
  · simp only
    rw [b2]
    exact (hwf.sub kb.1).mono (by omega)
  · simp only
    rw [hl, hnb]
    omega
  · intro hsz i hi
    simp only at hi ⊢
    rw [Nat.mod_eq_of_lt (by omega)]
    unfold depApp
    rw [if_neg (by omega)]
    exact Nat.le_refl _

theorem depApp_ext {T T' : List Nat} {dep : Nat → Nat} {d : Nat} (h : T.length ≤ T'.length) :
    Ext T dep T' (depApp T dep d) := ⟨h, fun j hj => by unfold depApp; rw [if_pos hj]⟩

theorem allocTotal {N d : Nat} {m : Mode} {L : List Code} (hwf : CW N (B - 10 * d) L) {off : Nat}
    (todo : EscapeCodes) {T : List Nat} {dep : Nat → Nat} {Q : EscapeCodes} (hT : TInv N B T dep)
    (hreg : off + 2 ^ nb L ≤ T.length)
    (hdep : T.length ≤ 2 ^ 24 → ∀ i, i < 2 ^ nb L → dep (off + i) ≤ d)
    (hQ : ∀ kb ∈ Q, BOK B N (d + 1) T dep kb.2) (ht : ∀ kb ∈ todo, IsBucket m L kb) :
    ∃ T' Q' dep', todo.foldlM (allocStep m off) (T, Q) = .ok (T', Q') ∧ TInv N B T' dep' ∧
      Ext T dep T' dep' ∧ (∀ kb ∈ Q', BOK B N (d + 1) T' dep' kb.2) ∧
      qcost Q' = qcost Q + qcost todo ∧ T'.length ≤ T.length + 1024 * todo.length := by
  induction todo generalizing T dep Q with
  | nil => exact ⟨T, Q, dep, rfl, hT, Ext.refl _ _, hQ, by simp [qcost], by simp⟩
  | cons kb todo ih =>
    have hkb := ht kb (by simp)
    obtain ⟨k1, k2, k3⟩ := sub_level hwf hkb.1
    obtain ⟨T1, f1, f2, f3⟩ := allocTotal1 (m := m) hT (off := off) (k := kb.1) (d := d + 1) (by omega) (by omega)
      (fun hsz => by have := hdep hsz kb.1 k2; omega) kb.2
    have hle := pow_le_1024 (show min kb.2.maxlen 10 ≤ 10 by omega)
    have hpos := Nat.two_pow_pos (min kb.2.maxlen 10)
    have he : Ext T dep T1 (depApp T dep (d + 1)) := depApp_ext (by omega)
    obtain ⟨T2, Q2, dep2, a1, a2, a3, a4, a5, a6⟩ := ih (T := T1) (dep := depApp T dep (d + 1))
      (Q := Q ++ [(kb.1, { kb.2 with offset := T.length % 2 ^ 32 })]) f3 (by omega)
      (by
        intro hsz i hi
        rw [he.2 _ (by omega)]
        exact hdep (by omega) i hi)
      (by
        intro kb' hkb'
        rcases List.mem_append.mp hkb' with h | h
        · exact (hQ kb' h).ext he
        · simp only [List.mem_singleton] at h; subst h
          exact BOK.alloc hwf hkb f2)
      (fun kb' h => ht kb' (by simp [h]))
    refine ⟨T2, Q2, dep2, ?_, a2, he.trans a3, a4, ?_, by simp only [List.length_cons]; omega⟩
    · simp only [List.foldlM_cons, allocStep, f1, ok_bind, pure_eq_ok]
      exact a1
    · rw [a5]; simp [qcost]; omega

theorem foldTotal {N d : Nat} {build : List Nat → Nat × CodeBucket → Rust (List Nat)} (Q : EscapeCodes)
    (hb : ∀ kb ∈ Q, ∀ (T : List Nat) (dep : Nat → Nat), TInv N B T dep → BOK B N d T dep kb.2 →
      ∃ T' dep', build T kb = .ok T' ∧ TInv N B T' dep' ∧ Ext T dep T' dep' ∧
        T'.length ≤ T.length + cost kb.2.codes)
    {T : List Nat} {dep : Nat → Nat} (hT : TInv N B T dep) (hQ : ∀ kb ∈ Q, BOK B N d T dep kb.2) :
    ∃ T' dep', Q.foldlM build T = .ok T' ∧ TInv N B T' dep' ∧ Ext T dep T' dep' ∧
      T'.length ≤ T.length + qcost Q := by
  induction Q generalizing T dep with
  | nil => exact ⟨T, dep, rfl, hT, Ext.refl _ _, by simp [qcost]⟩
  | cons kb Q ih =>
    obtain ⟨T1, dep1, a1, a2, a3, a4⟩ := hb kb (by simp) T dep hT (hQ kb (by simp))
    obtain ⟨T2, dep2, b1, b2, b3, b4⟩ := ih (fun kb' h => hb kb' (by simp [h])) a2
      (fun kb' h => (hQ kb' (by simp [h])).ext a3)
    refine ⟨T2, dep2, by rw [List.foldlM_cons, a1]; exact b1, b2, a3.trans b3, ?_⟩
    simp only [qcost, List.map_cons, List.sum_cons] at b4 ⊢
    omega

theorem buildTotal {ord : Order} (hord : ord.Valid) {N : Nat} (hN : N ≤ 2 ^ 32) {m : Mode}
    (hB : B ≤ maxLen m) (fuel d : Nat) (hfu : 26 ≤ d + fuel) (path : List Nat) (b : CodeBucket) (T : List Nat)
    (dep : Nat → Nat) (hT : TInv N B T dep) (hb : BOK B N d T dep b) :
    ∃ T' dep', buildEscLut ord m fuel path T b = .ok T' ∧ TInv N B T' dep' ∧ Ext T dep T' dep' ∧
      T'.length ≤ T.length + cost b.codes := by
  induction fuel generalizing d path b T dep with
  | zero =>
    obtain ⟨c, hc⟩ := List.exists_mem_of_ne_nil _ hb.ne
    have := hb.cw c hc
    have := maxLen_le m
    omega
  | succ fuel ih =>
    have hnb : min b.maxlen MAX_LUT_BITS = nb b.codes := by rw [hb.ml]; rfl
    obtain ⟨T1, M, a1, a2, a3, a4⟩ := escTotal hN (m := m) (hb.cw.mono (by omega)) b.codes [] rfl hb.reg hT
      (Grouped.nil m)
    have hisb : ∀ kb ∈ M, IsBucket m b.codes kb := by
      intro kb hkb
      have := mem_get a4.nodup (show (kb.1, kb.2) ∈ M from hkb)
      rw [a4.get] at this
      exact bucketOf_some this
    have hp0 := hord path 0 M
    have hlen0 : (ord path 0 M).length = M.length := hp0.length_eq
    obtain ⟨T2, Q, dep2, b1, b2, b3, b4, b5, b6⟩ := allocTotal (m := m) (L := b.codes) (d := d) hb.cw
      (off := b.offset) (ord path 0 M) (T := T1) (dep := dep) (Q := []) a3 (by rw [a2]; exact hb.reg)
      (by rw [a2]; exact hb.dep) (by simp) (fun kb h => hisb kb (hp0.mem_iff.mp h))
    rw [hlen0] at b6
    rw [qcost_perm hp0] at b5
    simp only [qcost, List.map_nil, List.sum_nil, Nat.zero_add] at b5
    have hq2 : qcost Q = qcost M := b5
    have hp1 := hord path 1 Q
    have hq1 := qcost_perm hp1
    obtain ⟨T3, dep3, c1, c2, c3, c4⟩ := foldTotal (ord path 1 Q) (d := d + 1)
      (build := fun t kb => buildEscLut ord m fuel (path ++ [kb.1]) t kb.2)
      (fun kb _ T dep h1 h2 => ih (d + 1) (by omega) _ kb.2 T dep h1 h2) b2
      (fun kb h => b4 kb (hp1.mem_iff.mp h))
    have he : Ext T dep T1 dep := ⟨by omega, fun _ _ => rfl⟩
    refine ⟨T3, dep3, ?_, c2, (he.trans b3).trans c3, ?_⟩
    · simp only [buildEscLut, hnb, a1, ok_bind, b1]
      exact c1
    · have := mcost_eq M
      have := a4.cost
      omega

/-! ### `Codebook::new` -/

def longs (L : List Code) : Nat := (L.filter long).length

theorem qcost_addEscCode (M : EscapeCodes) (key code bits idx : Nat) :
    qcost (addEscCode M key code bits idx) = qcost M + cost1 ⟨code, bits, idx⟩ := by
  induction M with
  | nil => simp [addEscCode, qcost, CodeBucket.addCode, CodeBucket.new, cost]
  | cons kb M ih =>
    obtain ⟨k', b⟩ := kb
    by_cases h1 : k' = key
    · simp only [addEscCode, h1, if_true, qcost, List.map_cons, List.sum_cons, CodeBucket.addCode,
        cost_append]
      simp only [cost, List.map_cons, List.map_nil, List.sum_cons, List.sum_nil]
      omega
    · simp only [addEscCode, h1, if_false, qcost, List.map_cons, List.sum_cons] at ih ⊢
      omega

theorem gather_arith {q q0 l a b c : Nat} (h : q + 1024 * l = q0 + a + c) (e : a + 1024 = b) :
    q + 1024 * (l + 1) = q0 + (b + c) := by
  rw [Nat.mul_add, Nat.mul_one, ← e]
  generalize 1024 * l = z at h ⊢
  generalize 1024 = K
  omega

theorem gatherCost {m : Mode} (ds : List (Desc S)) (g g' : Gather) (k : Nat)
    (h : ds.foldlM (gatherStep m) g = .ok g') :
    qcost g'.esc + 1024 * longs (codesFrom k ds) = qcost g.esc + cost (codesFrom k ds) := by
  induction ds generalizing g k with
  | nil => cases h; simp [codesFrom, longs, cost]
  | cons d ds ih =>
    rw [List.foldlM_cons] at h
    cases hg : gatherStep m g d with
    | error p => rw [hg] at h; cases h
    | ok g1 =>
      rw [hg] at h
      replace h : ds.foldlM (gatherStep m) g1 = .ok g' := h
      unfold gatherStep at hg
      by_cases hb : d.bits > MAX_LUT_BITS
      · have hb' : d.bits > 10 := hb
        rw [if_pos hb] at hg
        cases hk : extractLutPart d.code d.bits MAX_LUT_BITS m with
        | error p => rw [hk] at hg; cases hg
        | ok ck =>
          cases hv : extractEscPart d.code d.bits MAX_LUT_BITS m with
          | error p => rw [hk, hv] at hg; cases hg
          | ok cv =>
            rw [hk, hv] at hg
            simp only [ok_bind, pure_eq_ok, Except.ok.injEq] at hg
            have h2 := ih g1 (k + 1) h
            rw [← hg] at h2
            simp only [qcost_addEscCode] at h2
            have e1 : cost1 ⟨cv, d.bits - MAX_LUT_BITS, g.symidx⟩ + 1024 = cost1 ⟨d.code, d.bits, k⟩ := by
              simp only [cost1, MAX_LUT_BITS]; omega
            have e2 : longs (⟨d.code, d.bits, k⟩ :: codesFrom (k + 1) ds) = longs (codesFrom (k + 1) ds) + 1 := by
              simp [longs, long, hb']
            simp only [codesFrom, show d.bits ≠ 0 by omega, if_false, e2]
            simp only [cost, List.map_cons, List.sum_cons] at h2 ⊢
            exact gather_arith h2 e1
      · have hb' : ¬ d.bits > 10 := hb
        rw [if_neg hb] at hg
        simp only [ok_bind, pure_eq_ok, Except.ok.injEq] at hg
        by_cases h0 : d.bits = 0
        · simp only [codesFrom, h0, if_true]
          have h2 := ih g1 k h
          rw [← hg] at h2
          exact h2
        · have h2 := ih g1 (k + 1) h
          rw [← hg] at h2
          have e1 : cost1 ⟨d.code, d.bits, k⟩ = 0 := by simp only [cost1]; omega
          have e2 : longs (⟨d.code, d.bits, k⟩ :: codesFrom (k + 1) ds) = longs (codesFrom (k + 1) ds) := by
            simp [longs, long, hb']
          simp only [codesFrom, h0, if_false, e2]
          simp only [cost, List.map_cons, List.sum_cons] at h2 ⊢
          omega

/-- State of the second loop of `Codebook::new`. -/
structure GInv (N B : Nat) (m : Mode) (L : List Code) (M0 : EscapeCodes) (T : List Nat) (M : EscapeCodes)
    (dep : Nat → Nat) : Prop where
  t : TInv N B T dep
  reg : 2 ^ nb L ≤ T.length
  root : ∀ j, j < 2 ^ nb L → dep j = 0
  keys : M.map (·.1) = M0.map (·.1)
  bucket : ∀ kb ∈ M, IsBucket m L kb ∧ BOK B N 1 T dep kb.2
  cost : qcost M = qcost M0

theorem fillTotal {N : Nat} (hN : N < 2 ^ 32) {m : Mode} {L : List Code} {M0 : EscapeCodes}
    (hB : B ≤ maxLen m) (hwf : CW N B L) (hM0 : (M0.map (·.1)).Nodup) (hlen : L.length = N)
    (ds : List (Desc S)) (pre : List Code) (hL : pre ++ codesFrom pre.length ds = L)
    {T : List Nat} {M : EscapeCodes} {dep : Nat → Nat} (hG : GInv N B m L M0 T M dep) :
    ∃ T' M' dep' n, ds.foldlM (fillStep m (nb L)) ⟨T, M, pre.length⟩ = .ok ⟨T', M', n⟩ ∧
      GInv N B m L M0 T' M' dep' ∧ T'.length ≤ T.length + 1024 * longs (codesFrom pre.length ds) := by
  induction ds generalizing pre T M dep with
  | nil => exact ⟨T, M, dep, _, rfl, hG, by simp [codesFrom, longs]⟩
  | cons d ds ih =>
    by_cases h0 : d.bits = 0
    · simp only [codesFrom, h0, if_true] at hL ⊢
      obtain ⟨T', M', dep', n, a1, a2⟩ := ih pre hL hG
      refine ⟨T', M', dep', n, ?_, a2⟩
      rw [List.foldlM_cons, ← a1]
      simp only [fillStep, h0, if_true, ok_bind]
    · simp only [codesFrom, h0, if_false] at hL ⊢
      have hc : (⟨d.code, d.bits, pre.length⟩ : Code) ∈ L := by rw [← hL]; simp
      obtain ⟨w1, w2, w3, w4⟩ := hwf _ hc
      simp only at w1 w2 w3 w4
      have hlt2 : pre.length + 1 < 2 ^ 32 := by omega
      have hlen : (pre ++ [(⟨d.code, d.bits, pre.length⟩ : Code)]).length = pre.length + 1 := by simp
      have hL' : (pre ++ [(⟨d.code, d.bits, pre.length⟩ : Code)]) ++
          codesFrom (pre ++ [(⟨d.code, d.bits, pre.length⟩ : Code)]).length ds = L := by
        rw [hlen, List.append_assoc]; exact hL
      by_cases hb : d.bits ≤ 10
      · obtain ⟨T1, f1, f2, f3⟩ := fillTotal1 (m := m) hG.t (off := 0) (s := pre.length) w1
          (bits_le_nb hc hb) (nb_le L) w3 (by have := hG.reg; omega) w4
        have he : Ext T dep T1 dep := ⟨by omega, fun _ _ => rfl⟩
        obtain ⟨T', M', dep', n, a1, a2, a3⟩ := ih _ hL' (T := T1) (M := M) (dep := dep)
          ⟨f3, by rw [f2]; exact hG.reg, hG.root, hG.keys,
            fun kb h => ⟨(hG.bucket kb h).1, (hG.bucket kb h).2.ext he⟩, hG.cost⟩
        rw [hlen] at a1 a3
        refine ⟨T', M', dep', n, ?_, a2, ?_⟩
        · rw [List.foldlM_cons, ← a1]
          simp only [fillStep, h0, if_false, f1, ok_bind, pure_eq_ok, add32_ok hlt2]
          rw [if_pos (by simpa [MAX_LUT_BITS] using hb)]
          rfl
        · have : longs (⟨d.code, d.bits, pre.length⟩ :: codesFrom (pre.length + 1) ds) =
              longs (codesFrom (pre.length + 1) ds) := by
            simp [longs, long, Nat.not_lt.mpr hb]
          omega
      · have hb' : 10 < d.bits := by omega
        have e1 := extractLut_ok (m := m) (c := ⟨d.code, d.bits, pre.length⟩) hb'
          (show d.bits ≤ maxLen m by omega)
        simp only at e1
        have hs : Codebook.sub m L (keyOf m ⟨d.code, d.bits, pre.length⟩) ≠ [] :=
          List.ne_nil_of_mem (mem_sub.mpr ⟨_, hc, hb', rfl, rfl⟩)
        obtain ⟨k1, k2, _⟩ := sub_level (d := 0) hwf hs
        have hreg := hG.reg
        have hlong : longs (⟨d.code, d.bits, pre.length⟩ :: codesFrom (pre.length + 1) ds) =
            longs (codesFrom (pre.length + 1) ds) + 1 := by
          simp [longs, long, hb']
        generalize hkey : keyOf m ⟨d.code, d.bits, pre.length⟩ = key at *
        have hidx : idx T key = .ok (T[key]'(by omega)) := idx_ok (by omega)
        generalize T[key]'(by omega) = ent at hidx
        have stay : ∀ {x}, (x = (T, M)) →
            (∃ T' M' dep' n, (ds.foldlM (fillStep m (nb L)) ⟨x.1, x.2, pre.length + 1⟩ : Rust Fill) =
              .ok ⟨T', M', n⟩ ∧ GInv N B m L M0 T' M' dep' ∧
              T'.length ≤ T.length + 1024 * longs (⟨d.code, d.bits, pre.length⟩ :: codesFrom (pre.length + 1) ds)) := by
          rintro _ rfl
          obtain ⟨T', M', dep', n, a1, a2, a3⟩ := ih _ hL' hG
          rw [hlen] at a1 a3
          exact ⟨T', M', dep', n, a1, a2, by omega⟩
        rw [List.foldlM_cons]
        simp only [fillStep, h0, if_false, e1, hidx, ok_bind]
        rw [if_neg (by simpa [MAX_LUT_BITS] using hb)]
        by_cases hent : ent = FILL
        · simp only [hent, if_true]
          cases hget : EscapeCodes.get M key with
          | none =>
            simp only [ok_bind, add32_ok hlt2, pure_eq_ok]
            exact stay rfl
          | some b =>
            have hbk := hG.bucket _ (get_mem hget)
            have hnd : (M.map (·.1)).Nodup := by rw [hG.keys]; exact hM0
            obtain ⟨T1, f1, f2, f3⟩ := allocTotal1 (m := m) hG.t (off := 0) (k := key) (d := 1) (by omega)
              (by omega) (fun _ => by rw [Nat.zero_add, hG.root key k2]; omega) b
            have hle := pow_le_1024 (show min b.maxlen 10 ≤ 10 by omega)
            have hpos := Nat.two_pow_pos (min b.maxlen 10)
            have he : Ext T dep T1 (depApp T dep 1) := depApp_ext (by omega)
            obtain ⟨T', M', dep', n, a1, a2, a3⟩ := ih _ hL' (T := T1)
              (M := EscapeCodes.put M key { b with offset := T.length % 2 ^ 32 }) (dep := depApp T dep 1)
              ⟨f3, by omega, fun j hj => by rw [he.2 j (by omega)]; exact hG.root j hj,
                by rw [put_keys]; exact hG.keys, by
                  intro kb hkb
                  rcases mem_put hnd hkb with rfl | ⟨_, h⟩
                  · exact ⟨hbk.1, BOK.alloc (d := 0) (kb := (key, b)) hwf hbk.1 f2⟩
                  · exact ⟨(hG.bucket kb h).1, (hG.bucket kb h).2.ext he⟩,
                (qcost_put (b := { b with offset := T.length % 2 ^ 32 }) hget rfl).trans hG.cost⟩
            rw [hlen] at a1 a3
            simp only [f1, ok_bind, pure_eq_ok, add32_ok hlt2]
            exact ⟨T', M', dep', n, a1, a2, by omega⟩
        · simp only [hent, if_false, ok_bind, add32_ok hlt2, pure_eq_ok]
          exact stay rfl

theorem codesFrom_CW {ds : List (Desc S)} (hwf : WF m ds) (hds : ∀ d ∈ used ds, d.bits ≤ B) :
    CW (used ds).length B (codesFrom 0 ds) := by
  intro c hc
  obtain ⟨_, d, h1, h2, h3⟩ := mem_codesFrom hc
  have hm : d ∈ used ds := List.mem_of_getElem? h1
  have hlt := (List.getElem?_eq_some_iff.mp h1).1
  obtain ⟨w1, w2⟩ := hwf d hm
  have : d.bits > 0 := by simpa [used] using (List.mem_filter.mp hm).2
  rw [← h2, ← h3]
  exact ⟨this, hds d hm, w2, by omega⟩

/-- Construction succeeds on any description with codes in range, overlapping or not. -/
theorem newTotal {ord : Order} (hord : ord.Valid) {m : Mode} {ds : List (Desc S)} (hwf : WF m ds)
    (hB : B ≤ maxLen m) (hds : ∀ d ∈ used ds, d.bits ≤ B) (hn : (used ds).length < 2 ^ 32)
    (hne : used ds ≠ []) :
    ∃ T dep, new ord m ds = .ok (.ok ⟨T, (used ds).map (·.sym), nb (codesFrom 0 ds)⟩) ∧
      TInv (used ds).length B T dep ∧ 2 ^ nb (codesFrom 0 ds) ≤ T.length ∧ T.length ≤ tableBound ds := by
  have hCW := codesFrom_CW hwf hds
  have hb32 : ∀ d ∈ ds, d.bits ≤ maxLen m := by
    intro d hd
    by_cases h : d.bits = 0
    · omega
    · exact (hwf d (List.mem_filter.mpr ⟨hd, by simp; omega⟩)).1
  obtain ⟨M0, g1, g2⟩ := gatherFold (m := m) ds [] [] hb32 (Grouped.nil m)
  simp only [List.nil_append, List.length_nil] at g1 g2
  have g1' : ds.foldlM (gatherStep m) { maxbits := 0, esc := [], symidx := 0 } = _ := g1
  have gc := gatherCost ds _ _ 0 g1'
  have hL : codesFrom 0 ds ≠ [] := by
    intro h
    have := codesFrom_length 0 ds
    rw [h] at this
    exact hne (List.length_eq_zero_iff.mp this.symm)
  obtain ⟨c0, hc0⟩ := List.exists_mem_of_ne_nil _ hL
  have hml : 0 < maxlen (codesFrom 0 ds) := by
    have := le_maxlen hc0; have := (hCW c0 hc0).1; omega
  have hnb : (if maxlen (codesFrom 0 ds) > MAX_LUT_BITS then MAX_LUT_BITS else maxlen (codesFrom 0 ds)) =
      nb (codesFrom 0 ds) := by unfold nb MAX_LUT_BITS; split <;> omega
  have h1024 := pow_le_1024 (nb_le (codesFrom 0 ds))
  have hB0 : 0 < B := by have := hCW c0 hc0; omega
  have hT0 : (List.replicate (1 <<< nb (codesFrom 0 ds)) FILL).length = 2 ^ nb (codesFrom 0 ds) := by
    simp [Nat.shiftLeft_eq]
  have hG0 : GInv (used ds).length B m (codesFrom 0 ds) M0
      (List.replicate (1 <<< nb (codesFrom 0 ds)) FILL) M0 (fun _ => 0) := by
    refine ⟨⟨fun _ _ => by omega, ?_⟩, by rw [hT0]; omega, fun _ _ => rfl, rfl, ?_, rfl⟩
    · intro _ i v hv
      rw [List.getElem?_replicate] at hv
      split at hv
      · cases hv; exact .inl rfl
      · cases hv
    · intro kb hkb
      have := mem_get g2.nodup (show (kb.1, kb.2) ∈ M0 from hkb)
      rw [g2.get] at this
      have hb := bucketOf_some this
      have hoff : kb.2.offset = 0 := by
        unfold bucketOf at this
        split at this
        · cases this
        · rw [← Option.some.inj this]
      obtain ⟨k1, k2, _⟩ := sub_level (d := 0) hCW hb.1
      refine ⟨hb, ?_, ?_, ?_, ?_, ?_⟩
      · rw [hb.2.1]; exact hb.1
      · rw [hb.2.1, hb.2.2]
      · rw [hb.2.1]; exact hCW.sub kb.1
      · rw [hoff, hT0, k1]
        have := Nat.pow_le_pow_right (n := 2) (by omega) (nb_le kb.2.codes)
        omega
      · intro _ i _; omega
  obtain ⟨T1, M1, dep1, n, f1, f2, f3⟩ := fillTotal hn hB hCW g2.nodup (codesFrom_length 0 ds) ds [] rfl hG0
  simp only [List.length_nil] at f1 f3
  have hp1 := hord [] 1 M1
  obtain ⟨T2, dep2, c1, c2, c3, c4⟩ := foldTotal (ord [] 1 M1) (d := 1)
    (build := fun t kb => buildEscLut ord m 26 [kb.1] t kb.2)
    (fun kb _ T dep h1 h2 => buildTotal hord (by omega) hB 26 1 (by omega) _ kb.2 T dep h1 h2) f2.t
    (fun kb h => (f2.bucket kb (hp1.mem_iff.mp h)).2)
  refine ⟨T2, dep2, ?_, c2, ?_, ?_⟩
  · unfold new
    rw [g1']
    simp only [ok_bind, show ¬ maxlen (codesFrom 0 ds) = 0 by omega, if_false, hnb, f1, c1, pure_eq_ok]
    rfl
  · have := c3.1; have := f2.reg; omega
  · have hq := qcost_perm hp1
    have hq2 := f2.cost
    have hcost := codesFrom_cost ds
    have : qcost ([] : EscapeCodes) = 0 := rfl
    simp only [this] at gc
    rw [hT0] at f3
    omega

end Verif.Codebook
