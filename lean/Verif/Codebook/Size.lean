import Verif.Codebook.Total

/-!
# C132: how large the table of a codebook is

The table consists of parts: one for every place in a codeword, each ten bits, where codewords continue. A part has as
many entries as the longest rest of a codeword there asks for, 1024 at most.
-/

namespace Verif.Codebook
open Verif Verif.BitRead

/-! ### the second loop of `Codebook::new` -/

theorem leafVal_ne (i : Nat) {b : Nat} (hb : b ≤ 10) : leafVal i b ≠ FILL := by
  intro h
  have := congrArg (fun n => n.testBit 6) h
  have h2 : b.testBit 6 = false := Nat.testBit_lt_two_pow (by omega)
  have h3 : (i <<< 8 % 2 ^ 32).testBit 6 = false := by
    rw [Nat.testBit_mod_two_pow, Nat.testBit_shiftLeft]; simp
  rw [show (2 : Nat) ^ 32 = 4294967296 from rfl] at h3
  simp [leafVal, FILL, h2, h3] at this
  exact absurd this (by decide)

theorem escVal_ne (i : Nat) {b : Nat} (hb : b ≤ 10) : escVal i b ≠ FILL := by
  intro h
  have := congrArg (fun n => n.testBit 6) h
  have h2 : b.testBit 6 = false := Nat.testBit_lt_two_pow (by omega)
  have h3 : (i <<< 8 % 2 ^ 32).testBit 6 = false := by
    rw [Nat.testBit_mod_two_pow, Nat.testBit_shiftLeft]; simp
  rw [show (2 : Nat) ^ 32 = 4294967296 from rfl] at h3
  simp [escVal, FILL, h2, h3] at this
  exact absurd this (by decide)

/-- Where the loop stands: the parts for the groups `K` are there. -/
structure SInv (m : Mode) (L : List Code) (M0 : EscapeCodes) (pre : List Code) (T : List Nat) (M : EscapeCodes)
    (K : List Nat) : Prop where
  len : T.length = 2 ^ nb L + (K.map fun k => 2 ^ nb (sub m L k)).sum
  nodup : K.Nodup
  sub : ∀ k ∈ K, Codebook.sub m L k ≠ []
  taken : ∀ k ∈ K, T[k]? ≠ some FILL
  free : ∀ i, i < 2 ^ nb L → i ∉ K → (∀ c ∈ pre, c.bits ≤ 10 → top m (nb L) c.bits i ≠ c.code) →
    T[i]? = some FILL
  keys : M.map (·.1) = M0.map (·.1)
  bucket : ∀ kb ∈ M, IsBucket m L kb
  done : ∀ c ∈ pre, 10 < c.bits → keyOf m c ∈ K ∨
    ∃ s ∈ pre, s.bits ≤ 10 ∧ top m 10 s.bits (keyOf m c) = s.code

theorem fill_len {m : Mode} {L : List Code} {M0 : EscapeCodes} (hL : CB (maxLen m) L) (hM0 : Grouped m L M0)
    (ds : List (Desc S)) {pre : List Code} {n : Nat} (hpre : pre ++ codesFrom n ds = L) {T : List Nat}
    {M : EscapeCodes} {K : List Nat} {f : Fill} (hI : SInv m L M0 pre T M K)
    (h : ds.foldlM (fillStep m (nb L)) ⟨T, M, n⟩ = .ok f) : ∃ K', SInv m L M0 L f.table f.esc K' := by
  induction ds generalizing pre n T M K with
  | nil =>
    simp only [codesFrom, List.append_nil] at hpre
    simp only [List.foldlM_nil, pure_eq_ok, Except.ok.injEq] at h
    subst hpre h
    exact ⟨K, hI⟩
  | cons d ds ih =>
    rw [List.foldlM_cons] at h
    obtain ⟨⟨T1, M1, n1⟩, h1, h⟩ := bind_inv h
    by_cases h0 : d.bits = 0
    · simp only [codesFrom, h0, if_true] at hpre
      simp only [fillStep, h0, if_true, Except.ok.injEq, Fill.mk.injEq] at h1
      obtain ⟨rfl, rfl, rfl⟩ := h1
      exact ih hpre hI h
    · simp only [codesFrom, h0, if_false] at hpre
      have hc : (⟨d.code, d.bits, n⟩ : Code) ∈ L := by rw [← hpre]; simp
      obtain ⟨w1, w2, w3⟩ := hL _ hc
      simp only at w1 w2 w3
      have hpre' : (pre ++ [(⟨d.code, d.bits, n⟩ : Code)]) ++ codesFrom (n + 1) ds = L := by
        rw [List.append_assoc]; exact hpre
      simp only [fillStep, h0, if_false] at h1
      obtain ⟨⟨T2, M2⟩, h2, h1⟩ := bind_inv h1
      obtain ⟨n2, h3, h1⟩ := bind_inv h1
      have hn : n2 = n + 1 := by
        unfold add32 at h3
        split at h3 <;> cases h3
        rfl
      simp only [pure_eq_ok, Except.ok.injEq, Fill.mk.injEq] at h1
      obtain ⟨rfl, rfl, rfl⟩ := h1
      subst hn
      suffices hs : ∃ K', SInv m L M0 (pre ++ [⟨d.code, d.bits, n⟩]) T2 M2 K' from by
        obtain ⟨K', hK'⟩ := hs
        exact ih hpre' hK' h
      have hlen := hI.len
      by_cases hb : d.bits ≤ 10
      · rw [if_pos (by simpa [MAX_LUT_BITS] using hb)] at h2
        obtain ⟨T3, h4, h2⟩ := bind_inv h2
        simp only [pure_eq_ok, Except.ok.injEq, Prod.mk.injEq] at h2
        obtain ⟨rfl, rfl⟩ := h2
        obtain ⟨T', f1, f2, f3, f4⟩ := fillLut_leaf (m := m) (t := T) (off := 0) (s := n) (code := d.code)
          (bits_le_nb hc hb) (nb_le L) w3 (by omega)
        simp only at f1
        rw [f1] at h4
        cases h4
        refine ⟨K, ⟨by rw [f2]; exact hlen, hI.nodup, hI.sub, ?_, ?_, hI.keys, hI.bucket, ?_⟩⟩
        · intro k hk
          by_cases hh : k < 2 ^ nb L ∧ top m (nb L) d.bits k = d.code
          · have := f3 k hh.1 hh.2
            rw [Nat.zero_add] at this
            rw [this]
            intro e
            exact leafVal_ne n hb (by simpa using e)
          · rw [f4 k]
            · exact hI.taken k hk
            · intro i hi hi' e
              rw [Nat.zero_add] at e
              subst e
              exact hh ⟨hi, hi'⟩
        · intro i hi hik hno
          have hne := hno ⟨d.code, d.bits, n⟩ (by simp) hb
          rw [f4 i]
          · exact hI.free i hi hik fun c hc => hno c (by simp [hc])
          · intro i' _ hi' e
            rw [Nat.zero_add] at e
            subst e
            exact hne hi'
        · intro c hcm hcb
          rcases List.mem_append.mp hcm with hc | hc
          · exact (hI.done c hc hcb).imp id fun ⟨s, s1, s2⟩ => ⟨s, by simp [s1], s2⟩
          · simp only [List.mem_singleton] at hc
            subst hc
            simp only at hcb
            omega
      · have hb' : 10 < d.bits := by omega
        have e1 := extractLut_ok (m := m) (c := ⟨d.code, d.bits, n⟩) hb' w2
        simp only at e1
        have hs : Codebook.sub m L (keyOf m ⟨d.code, d.bits, n⟩) ≠ [] :=
          List.ne_nil_of_mem (mem_sub.mpr ⟨_, hc, hb', rfl, rfl⟩)
        have hnb : nb L = 10 := nb_of_long hc hb'
        have hklt : keyOf m ⟨d.code, d.bits, n⟩ < 2 ^ nb L := by
          rw [hnb]; exact sub_key_lt hL hs
        generalize hk : keyOf m ⟨d.code, d.bits, n⟩ = k at e1 hs hklt
        rw [if_neg (by simpa [MAX_LUT_BITS] using hb), e1] at h2
        simp only [ok_bind] at h2
        have hkT : k < T.length := by omega
        rw [idx_ok hkT] at h2
        simp only [ok_bind] at h2
        have hfree : ∀ K' : List Nat, (∀ i, i ∉ K' → i ∉ K) → ∀ i, i < 2 ^ nb L → i ∉ K' → (∀ c ∈ pre ++ [(⟨d.code, d.bits, n⟩ : Code)], c.bits ≤ 10 →
            top m (nb L) c.bits i ≠ c.code) → T[i]? = some FILL :=
          fun K' hK i hi hik hno => hI.free i hi (hK i hik) fun c hc => hno c (by simp [hc])
        have hdone : ∀ K' : List Nat, (∀ i, i ∈ K → i ∈ K') → (k ∈ K' ∨ ∃ s ∈ pre, s.bits ≤ 10 ∧ top m 10 s.bits k = s.code) →
            ∀ c ∈ pre ++ [(⟨d.code, d.bits, n⟩ : Code)], 10 < c.bits → keyOf m c ∈ K' ∨
              ∃ s ∈ pre ++ [(⟨d.code, d.bits, n⟩ : Code)], s.bits ≤ 10 ∧ top m 10 s.bits (keyOf m c) = s.code := by
          intro K' hK hd c hcm hcb
          rcases List.mem_append.mp hcm with hc | hc
          · exact (hI.done c hc hcb).imp (hK _) fun ⟨s, s1, s2⟩ => ⟨s, by simp [s1], s2⟩
          · simp only [List.mem_singleton] at hc
            subst hc
            rw [hk]
            exact hd.imp id fun ⟨s, s1, s2⟩ => ⟨s, by simp [s1], s2⟩
        by_cases hent : T[k] = FILL
        · rw [if_pos hent] at h2
          have hkK : k ∉ K := fun hkK => hI.taken k hkK (by rw [List.getElem?_eq_getElem hkT, hent])
          have hkM : k ∈ M0.map (·.1) := hM0.mem.mpr hs
          cases hg : EscapeCodes.get M k with
          | none => rw [get_none, hI.keys] at hg; exact absurd hkM hg
          | some b =>
            rw [hg] at h2
            obtain ⟨⟨T3, b3⟩, h4, h2⟩ := bind_inv h2
            simp only [pure_eq_ok, Except.ok.injEq, Prod.mk.injEq] at h2
            obtain ⟨rfl, rfl⟩ := h2
            have hbk := hI.bucket _ (get_mem hg)
            obtain ⟨a1, a2, a3⟩ := alloc_len h4
            have hmin : min b.maxlen 10 = nb (Codebook.sub m L k) := by rw [hbk.2.2]; rfl
            have hT3 : (∀ j, j < T.length → j ≠ k → T3[j]? = T[j]?) ∧ T3[k]? ≠ some FILL := by
              unfold allocBucket at h4
              obtain ⟨⟨T4, o⟩, h5, h4⟩ := bind_inv h4
              obtain ⟨T5, h6, h4⟩ := bind_inv h4
              simp only [pure_eq_ok, Except.ok.injEq, Prod.mk.injEq] at h4
              obtain ⟨rfl, rfl⟩ := h4
              unfold resizeTable at h5
              obtain ⟨a, _, h5⟩ := bind_inv h5
              simp only [pure_eq_ok, Except.ok.injEq, Prod.mk.injEq] at h5
              obtain ⟨rfl, rfl⟩ := h5
              rw [fillLut_esc (by rw [Nat.zero_add, List.length_append]; omega), Nat.zero_add] at h6
              cases h6
              refine ⟨fun j hj hjk => ?_, ?_⟩
              · rw [List.getElem?_set_ne (Ne.symm hjk), List.getElem?_append_left hj]
              · rw [List.getElem?_set_self (by rw [List.length_append]; omega)]
                intro e
                refine escVal_ne _ ?_ (Option.some.inj e)
                show min _ 10 ≤ 10
                omega
            have hnd : (M.map (·.1)).Nodup := by rw [hI.keys]; exact hM0.nodup
            refine ⟨k :: K, ⟨?_, ?_, ?_, ?_, ?_, ?_, ?_, ?_⟩⟩
            · rw [a1, hmin, List.map_cons, List.sum_cons]; omega
            · exact List.nodup_cons.mpr ⟨hkK, hI.nodup⟩
            · intro j hj
              rcases List.mem_cons.mp hj with rfl | hj
              · exact hs
              · exact hI.sub j hj
            · intro j hj
              rcases List.mem_cons.mp hj with rfl | hj
              · exact hT3.2
              · have hjn : j ≠ k := fun e => hkK (e ▸ hj)
                have hjl : j < T.length := by
                  have h5 := sub_key_lt hL (hI.sub j hj)
                  have : (1024 : Nat) = 2 ^ nb L := by rw [hnb]
                  omega
                rw [hT3.1 j hjl hjn]
                exact hI.taken j hj
            · intro i hi hik hno
              rw [hT3.1 i (by omega) fun e => hik (by simp [e])]
              exact hfree (k :: K) (fun i hi h => hi (by simp [h])) i hi hik hno
            · rw [put_keys]; exact hI.keys
            · intro kb hkb
              rcases mem_put hnd hkb with rfl | ⟨_, h⟩
              · exact ⟨hbk.1, by simp only [a2]; exact hbk.2.1, by simp only [a3]; exact hbk.2.2⟩
              · exact hI.bucket kb h
            · exact hdone (k :: K) (fun i h => by simp [h]) (.inl (by simp))
        · rw [if_neg hent] at h2
          simp only [Except.ok.injEq, Prod.mk.injEq] at h2
          obtain ⟨rfl, rfl⟩ := h2
          refine ⟨K, ⟨hlen, hI.nodup, hI.sub, hI.taken, hfree K fun _ h => h, hI.keys, hI.bucket,
            hdone K (fun _ h => h) ?_⟩⟩
          apply Classical.byContradiction
          intro hno
          rw [not_or] at hno
          refine hent ?_
          have := hI.free k hklt hno.1 fun c hc hcb e => hno.2 ⟨c, hc, hcb, by rw [hnb] at e; exact e⟩
          rw [List.getElem?_eq_getElem hkT] at this
          exact Option.some.inj this

/-! ### the size of the table -/

theorem new_len {ord : Order} (hord : ord.Valid) {m : Mode} {ds : List (Desc S)} (hwf : WF m ds) {cb : Codebook S}
    (h : new ord m ds = .ok (.ok cb)) :
    codesFrom 0 ds ≠ [] ∧ cb.table.length ≤ tsize m 27 (codesFrom 0 ds) ∧
      (PrefixFree m ds → cb.table.length = tsize m 27 (codesFrom 0 ds)) := by
  have hL := codesFrom_CB hwf
  have hb32 : ∀ d ∈ ds, d.bits ≤ maxLen m := by
    intro d hd
    by_cases h : d.bits = 0
    · omega
    · exact (hwf d (List.mem_filter.mpr ⟨hd, by simp; omega⟩)).1
  obtain ⟨M0, g1, g2⟩ := gatherFold (m := m) ds [] [] hb32 (Grouped.nil m)
  simp only [List.nil_append, List.length_nil] at g1 g2
  unfold new at h
  have g1' : ds.foldlM (gatherStep m) { maxbits := 0, esc := [], symidx := 0 } = _ := g1
  rw [g1'] at h
  simp only [ok_bind] at h
  split at h
  · simp at h
  rename_i hml
  have hnb : (if maxlen (codesFrom 0 ds) > MAX_LUT_BITS then MAX_LUT_BITS else maxlen (codesFrom 0 ds)) =
      nb (codesFrom 0 ds) := by unfold nb MAX_LUT_BITS; split <;> omega
  rw [hnb] at h
  obtain ⟨f, h1, h⟩ := bind_inv h
  obtain ⟨T, h2, h⟩ := bind_inv h
  simp only [pure_eq_ok, Except.ok.injEq] at h
  subst h
  have hI0 : SInv m (codesFrom 0 ds) M0 [] (List.replicate (1 <<< nb (codesFrom 0 ds)) FILL) M0 [] := by
    refine ⟨by simp [Nat.shiftLeft_eq], by simp, by simp, by simp, ?_, rfl, g2.bucket, by simp⟩
    intro i hi _ _
    rw [List.getElem?_replicate, if_pos (by rw [Nat.shiftLeft_eq]; omega)]
  obtain ⟨K, hK⟩ := fill_len hL g2 ds (pre := []) rfl hI0 h1
  have hp := hord [] 1 f.esc
  have hQb : ∀ kb ∈ ord [] 1 f.esc, IsBucket m (codesFrom 0 ds) kb := fun kb hkb => hK.bucket kb (hp.mem_iff.mp hkb)
  have hQk : ((ord [] 1 f.esc).map (·.1)).Perm (Codebook.keys m (codesFrom 0 ds)) := by
    refine (hp.map (·.1)).trans ?_
    rw [hK.keys]
    exact g2.keys hL
  have g := growFold (f := fun kb : Nat × CodeBucket => 2 ^ nb kb.2.codes)
    (g := fun kb => tsize m 26 kb.2.codes) (by
      intro kb hkb T T' h
      have hi := hQb kb hkb
      exact build_len hord 26 (by rw [hi.2.1, hi.2.2]) (by
        rw [hi.2.1]
        exact (hL.sub kb.1).mono (by omega)) h) h2
  rw [sum_keys (fun l => 2 ^ nb l) hQk hQb, sum_keys (fun l => tsize m 26 l) hQk hQb] at g
  have hle : (K.map fun k => 2 ^ nb (sub m (codesFrom 0 ds) k)).sum ≤
      ((Codebook.keys m (codesFrom 0 ds)).map fun k => 2 ^ nb (sub m (codesFrom 0 ds) k)).sum :=
    sum_le_of_nodup _ hK.nodup fun k hk => (mem_keys hL).mpr (hK.sub k hk)
  have hlen := hK.len
  refine ⟨fun e => hml (by rw [e]; rfl), ?_, fun hpf => ?_⟩
  · simp only [tsize]
    simp only [tsize] at g
    omega
  · have hPF := codesFrom_PF (k := 0) hwf hpf
    have hge : ((Codebook.keys m (codesFrom 0 ds)).map fun k => 2 ^ nb (sub m (codesFrom 0 ds) k)).sum ≤
        (K.map fun k => 2 ^ nb (sub m (codesFrom 0 ds) k)).sum := by
      refine sum_le_of_nodup _ (keys_nodup _ _) fun k hk => ?_
      obtain ⟨c', hc'⟩ := List.exists_mem_of_ne_nil _ ((mem_keys hL).mp hk)
      obtain ⟨c, h1, h2, rfl, _⟩ := mem_sub.mp hc'
      rcases hK.done c h1 h2 with h | ⟨s, s1, s2, s3⟩
      · exact h
      · exact absurd s3 (short_long hPF s1 s2 h1 h2)
    simp only [tsize]
    simp only [tsize] at g
    omega

/-- **C132** The table of a codebook made from codewords in range has at most one entry for every value of up to ten
bits behind every beginning of a codeword, and exactly these if no codeword starts another one. It does not depend on
the order in which maps are iterated nor on the order of the descriptions. -/
theorem c132_size (ord : Order) (hord : ord.Valid) (m : Mode) (ds : List (Desc S)) (hwf : WF m ds) (cb : Codebook S)
    (h : new ord m ds = .ok (.ok cb)) :
    cb.table.length ≤ tableSize m ds ∧ (PrefixFree m ds → cb.table.length = tableSize m ds) := by
  obtain ⟨h1, h2, h3⟩ := new_len hord hwf h
  rw [tableSize_eq hwf h1] at h2 h3
  exact ⟨h2, h3⟩

theorem exists_grouped (m : Mode) (L : List Code) : ∃ M, Grouped m L M := by
  generalize hn : L.length = n
  induction n generalizing L with
  | zero =>
    have : L = [] := List.length_eq_zero_iff.mp hn
    subst this
    exact ⟨[], .nil m⟩
  | succ n ih =>
    have hne : L ≠ [] := by intro e; simp [e] at hn
    obtain ⟨M, hM⟩ := ih L.dropLast (by simp; omega)
    rw [← List.dropLast_concat_getLast hne]
    by_cases hb : (L.getLast hne).bits ≤ 10
    · exact ⟨M, hM.short hb⟩
    · exact ⟨_, hM.long (by omega)⟩

theorem tsize_le (m : Mode) (d : Nat) {n : Nat} {L : List Code} (h : CB n L) : tsize m d L ≤ 1024 + cost L := by
  induction d generalizing n L with
  | zero => exact Nat.zero_le _
  | succ d ih =>
    obtain ⟨M, hM⟩ := exists_grouped m L
    have h1 := sum_keys (fun l => tsize m d l) (hM.keys h) hM.bucket
    have h2 : (M.map fun kb => tsize m d kb.2.codes).sum ≤ (M.map fun kb => 1024 + cost kb.2.codes).sum :=
      sum_le_sum fun kb hkb => by
        have := ih (h.sub (m := m) kb.1)
        rw [(hM.bucket kb hkb).2.1]
        exact this
    have h3 := hM.cost
    have h4 := pow_le_1024 (nb_le L)
    unfold mcost at h3
    simp only [tsize]
    omega

/-- A simple bound: at most one table for every codeword and every ten bits of it. -/
theorem tableSize_le {m : Mode} {ds : List (Desc S)} (hwf : WF m ds) : tableSize m ds ≤ tableBound ds := by
  rw [← codesFrom_cost]
  by_cases hne : codesFrom 0 ds = []
  · have : used ds = [] := by
      have := codesFrom_length 0 ds
      rw [hne] at this
      exact List.length_eq_zero_iff.mp this.symm
    simp [tableSize, wordsOf, this, heads]
  · rw [← tableSize_eq hwf hne]
    exact tsize_le m 27 (codesFrom_CB hwf)

/-- **C132** The bound again, in numbers of codewords: 1024 entries, and 1024 more for every codeword and every ten bits
of it that follow the first. -/
theorem c132_bound (ord : Order) (hord : ord.Valid) (m : Mode) (ds : List (Desc S)) (hwf : WF m ds) (cb : Codebook S)
    (h : new ord m ds = .ok (.ok cb)) : cb.table.length ≤ tableBound ds :=
  Nat.le_trans (c132_size ord hord m ds hwf cb h).1 (tableSize_le hwf)

theorem tsize_short (m : Mode) (d : Nat) {n : Nat} {L : List Code} (h : CB n L) :
    (n ≤ 10 → tsize m d L ≤ 1024) ∧ (n ≤ 20 → tsize m d L ≤ 1024 + 1024 * 1024) := by
  have h1 : ∀ {d n : Nat} {L : List Code}, CB n L → n ≤ 10 → tsize m d L ≤ 1024 := by
    intro d n L h hn
    cases d with
    | zero => exact Nat.zero_le _
    | succ d =>
      have : keys m L = [] := by
        rw [List.eq_nil_iff_forall_not_mem]
        intro k hk
        obtain ⟨c', hc'⟩ := List.exists_mem_of_ne_nil _ ((mem_keys h).mp hk)
        obtain ⟨c, c1, c2, _⟩ := mem_sub.mp hc'
        have := (h c c1).2.1
        omega
      simp only [tsize, this, List.map_nil, List.sum_nil, Nat.add_zero]
      exact pow_le_1024 (nb_le L)
  refine ⟨h1 h, fun hn => ?_⟩
  cases d with
  | zero => exact Nat.zero_le _
  | succ d =>
    have h2 : ((keys m L).map fun k => tsize m d (sub m L k)).sum ≤ ((keys m L).map fun _ => 1024).sum :=
      sum_le_sum fun k _ => h1 (h.sub k) (by omega)
    have h3 : (keys m L).length ≤ 1024 := by
      have := List.length_filter_le (fun k => decide (sub m L k ≠ [])) (List.range 1024)
      simpa [keys] using this
    have h4 : ((keys m L).map fun _ => 1024).sum = (keys m L).length * 1024 := by
      rw [List.map_const', List.sum_replicate_nat]
    have h5 := pow_le_1024 (nb_le L)
    simp only [tsize]
    omega

/-- **C132** A book of codewords of up to 20 bits is always small enough. -/
theorem c132_short (m : Mode) (ds : List (Desc S)) (hwf : WF m ds) (hb : ∀ d ∈ used ds, d.bits ≤ 20)
    (hn : (used ds).length ≤ 2 ^ 24) : Fits m ds := by
  refine ⟨?_, hn⟩
  by_cases hne : codesFrom 0 ds = []
  · have : used ds = [] := by
      have := codesFrom_length 0 ds
      rw [hne] at this
      exact List.length_eq_zero_iff.mp this.symm
    simp [tableSize, wordsOf, this, heads]
  · rw [← tableSize_eq hwf hne]
    have hCB : CB 20 (codesFrom 0 ds) := by
      intro c hc
      obtain ⟨_, d, h1, h2, h3⟩ := mem_codesFrom hc
      have := hb d (List.mem_of_getElem? h1)
      have := codesFrom_CB hwf c hc
      exact ⟨this.1, by omega, this.2.2⟩
    have := (tsize_short m 27 hCB).2 (by omega)
    omega

/-! ### examples -/

/-- All codewords of `n` bits, in order. -/
def complete (n : Nat) : List (Desc Nat) := (List.range (2 ^ n)).map fun i => ⟨i, n, i⟩

theorem used_complete {n : Nat} (hn : 0 < n) : used (complete n) = complete n := by
  unfold used complete
  rw [List.filter_eq_self]
  intro d hd
  obtain ⟨i, _, rfl⟩ := List.mem_map.mp hd
  simpa using hn

theorem complete_fits (m : Mode) {n : Nat} (h1 : 10 < n) (h2 : n ≤ 20) :
    Fits m (complete n) ∧ 1024 * 2 ^ n < tableBound (complete n) := by
  have hu := used_complete (n := n) (by omega)
  have hm : ∀ d ∈ complete n, d.bits = n ∧ d.code < 2 ^ n := by
    intro d hd
    obtain ⟨i, h1, rfl⟩ := List.mem_map.mp hd
    exact ⟨rfl, List.mem_range.mp h1⟩
  have hlen : (complete n).length = 2 ^ n := by simp [complete]
  have h20 : 2 ^ n ≤ 2 ^ 20 := Nat.pow_le_pow_right (by omega) h2
  refine ⟨c132_short m _ ?_ ?_ ?_, ?_⟩
  · intro d hd
    rw [hu] at hd
    obtain ⟨h3, h4⟩ := hm d hd
    exact ⟨by rw [h3]; cases m <;> simp only [maxLen] <;> omega, by rw [h3]; exact h4⟩
  · intro d hd
    rw [hu] at hd
    have := (hm d hd).1
    omega
  · rw [hu, hlen]; omega
  · unfold tableBound
    rw [hu]
    have : (complete n).map (fun d => 1024 * ((d.bits - 1) / 10)) = List.replicate (2 ^ n) 1024 := by
      rw [List.eq_replicate_iff]
      refine ⟨by rw [List.length_map, hlen], ?_⟩
      intro x hx
      obtain ⟨d, h3, rfl⟩ := List.mem_map.mp hx
      rw [(hm d h3).1]
      have : (n - 1) / 10 = 1 := by omega
      rw [this]
    rw [this, List.sum_replicate_nat]
    omega

/-- The complete code of 16 bits fits, though the simple bound is much larger than the table. -/
example (m : Mode) : Fits m (complete 16) ∧ 2 ^ 26 < tableBound (complete 16) :=
  complete_fits m (by decide) (by decide)

/-- Codewords of one, 12, 12, 11 and 22 bits, the last two with the same beginning. -/
def spread : List (Desc Nat) :=
  [⟨0b0, 1, 1⟩, ⟨0b100000000000, 12, 2⟩, ⟨0b110000000001, 12, 3⟩, ⟨0b11111111110, 11, 4⟩,
    ⟨0b1111111111100000000001, 22, 5⟩]

/-- 1024 entries, 4 for each of two beginnings, 1024 for the third and 4 behind it. -/
example : WF .msb spread ∧ PrefixFree .msb spread ∧ tableSize .msb spread = 1024 + 4 + 4 + 1024 + 4 := by decide +kernel

/-- Codewords that overlap are allowed for the bound. -/
example : WF .msb [(⟨1, 1, 1⟩ : Desc Nat), ⟨0b100000000000, 12, 2⟩] ∧
    tableSize .msb [(⟨1, 1, 1⟩ : Desc Nat), ⟨0b100000000000, 12, 2⟩] = 1028 := by decide +kernel

end Verif.Codebook
