import Verif.Codebook.Build

/-! # Helper lemmas: `Codebook::new` -/

namespace Verif.Codebook
open Verif Verif.BitRead

/-- The used entries, numbered from `k`. -/
def codesFrom (k : Nat) : List (Desc S) → List Code
  | [] => []
  | d :: ds =>
    if d.bits = 0 then codesFrom k ds else ⟨d.code, d.bits, k⟩ :: codesFrom (k + 1) ds

theorem gatherFold {m : Mode} (ds : List (Desc S)) (pre : List Code) (M : EscapeCodes)
    (hwf : ∀ d ∈ ds, d.bits ≤ maxLen m) (hM : Grouped m pre M) :
    ∃ M', ds.foldlM (gatherStep m) ⟨maxlen pre, M, pre.length⟩ =
      .ok ⟨maxlen (pre ++ codesFrom pre.length ds), M', (pre ++ codesFrom pre.length ds).length⟩ ∧
      Grouped m (pre ++ codesFrom pre.length ds) M' := by
  induction ds generalizing pre M with
  | nil => exact ⟨M, by simp [codesFrom, pure, Except.pure], by simpa [codesFrom] using hM⟩
  | cons d ds ih =>
    have hd := hwf d (by simp)
    have hds : ∀ d ∈ ds, d.bits ≤ maxLen m := fun d h => hwf d (by simp [h])
    by_cases h0 : d.bits = 0
    · obtain ⟨M', a1, a2⟩ := ih pre M hds hM
      refine ⟨M', ?_, by simpa only [codesFrom, h0, if_true] using a2⟩
      simp only [codesFrom, h0, if_true]
      rw [List.foldlM_cons, ← a1]
      simp only [gatherStep, h0, MAX_LUT_BITS, show ¬ 0 > 10 by omega, show ¬ 0 > 0 by omega, if_false,
        ok_bind, pure_eq_ok, Nat.zero_max]
    · have hlen : (pre ++ [(⟨d.code, d.bits, pre.length⟩ : Code)]).length = pre.length + 1 := by simp
      have hml : maxlen (pre ++ [(⟨d.code, d.bits, pre.length⟩ : Code)]) = max d.bits (maxlen pre) := by
        rw [maxlen_append]; simp only; omega
      by_cases hb : d.bits > 10
      · have e1 := extractLut_ok (m := m) (c := ⟨d.code, d.bits, pre.length⟩) hb hd
        have e2 := extractEsc_ok (m := m) (c := ⟨d.code, d.bits, pre.length⟩) hb hd
        simp only at e1 e2
        obtain ⟨M', a1, a2⟩ := ih _ _ hds (hM.long (c := ⟨d.code, d.bits, pre.length⟩) hb)
        rw [hlen, hml] at a1
        rw [hlen] at a2
        simp only [codesFrom, h0, if_false]
        rw [List.append_assoc, List.singleton_append] at a1 a2
        refine ⟨M', ?_, a2⟩
        rw [List.foldlM_cons, ← a1]
        simp only [gatherStep, e1, e2, ok_bind, pure_eq_ok, show d.bits > 0 by omega, if_true]
        rw [if_pos (by simpa [MAX_LUT_BITS] using hb)]
        rfl
      · obtain ⟨M', a1, a2⟩ := ih _ _ hds (hM.short (c := ⟨d.code, d.bits, pre.length⟩) (by simp only; omega))
        rw [hlen, hml] at a1
        rw [hlen] at a2
        simp only [codesFrom, h0, if_false]
        rw [List.append_assoc, List.singleton_append] at a1 a2
        refine ⟨M', ?_, a2⟩
        rw [List.foldlM_cons, ← a1]
        simp only [gatherStep, pure_eq_ok, show d.bits > 0 by omega, if_true]
        rw [if_neg (by simpa [MAX_LUT_BITS] using hb)]
        rfl

/-! ### writing through the map -/

theorem put_keys (M : EscapeCodes) (k : Nat) (b : CodeBucket) :
    (EscapeCodes.put M k b).map (·.1) = M.map (·.1) := by
  induction M with
  | nil => rfl
  | cons kb M ih =>
    obtain ⟨k', c⟩ := kb
    by_cases h : k' = k
    · simp [EscapeCodes.put, h]
    · simp only [EscapeCodes.put, h, if_false, List.map_cons, ih]

theorem mem_put {M : EscapeCodes} {k : Nat} {b : CodeBucket} (hn : (M.map (·.1)).Nodup)
    {kb : Nat × CodeBucket} (h : kb ∈ EscapeCodes.put M k b) :
    kb = (k, b) ∨ (kb.1 ≠ k ∧ kb ∈ M) := by
  induction M with
  | nil => simp [EscapeCodes.put] at h
  | cons kb' M ih =>
    obtain ⟨k', c⟩ := kb'
    simp only [List.map_cons, List.nodup_cons] at hn
    by_cases hk : k' = k
    · simp only [EscapeCodes.put, hk, if_true, List.mem_cons] at h
      rcases h with h | h
      · exact .inl h
      · refine .inr ⟨?_, List.mem_cons_of_mem _ h⟩
        intro e
        exact hn.1 (by rw [hk, ← e]; exact List.mem_map.mpr ⟨kb, h, rfl⟩)
    · simp only [EscapeCodes.put, hk, if_false, List.mem_cons] at h
      rcases h with h | h
      · exact .inr ⟨by rw [h]; exact hk, by simp [h]⟩
      · rcases ih hn.2 h with h | ⟨h1, h2⟩
        · exact .inl h
        · exact .inr ⟨h1, List.mem_cons_of_mem _ h2⟩

theorem qcost_put {M : EscapeCodes} {k : Nat} {b c : CodeBucket} (h : EscapeCodes.get M k = some c)
    (hc : b.codes = c.codes) : qcost (EscapeCodes.put M k b) = qcost M := by
  induction M with
  | nil => simp [EscapeCodes.get] at h
  | cons kb M ih =>
    obtain ⟨k', c'⟩ := kb
    by_cases hk : k' = k
    · simp only [EscapeCodes.get, hk, if_true, Option.some.injEq] at h
      simp [EscapeCodes.put, hk, qcost, hc, h]
    · simp only [EscapeCodes.get, hk, if_false] at h
      have := ih h
      simp only [EscapeCodes.put, hk, if_false, qcost, List.map_cons, List.sum_cons] at this ⊢
      omega

/-- When the first long code with the first bits `k` is met, the entry `k` is already taken by a short code. -/
def Spill (m : Mode) (L : List Code) (k : Nat) : Prop :=
  ∃ pre c post, L = pre ++ c :: post ∧ 10 < c.bits ∧ keyOf m c = k ∧
    (∀ c' ∈ pre, 10 < c'.bits → keyOf m c' ≠ k) ∧ ∃ s ∈ pre, s.bits ≤ 10 ∧ top m 10 s.bits k = s.code

theorem Spill.append {m : Mode} {L : List Code} {k : Nat} (h : Spill m L k) (L' : List Code) :
    Spill m (L ++ L') k := by
  obtain ⟨pre, c, post, h1, h2⟩ := h
  exact ⟨pre, c, post ++ L', by rw [h1]; simp, h2⟩

/-- Whether a group spills is decided by its first code. -/
theorem Spill.of_append {m : Mode} {L L' : List Code} {k : Nat} (h : Spill m (L ++ L') k)
    (hk : ∃ c ∈ L, 10 < c.bits ∧ keyOf m c = k) : Spill m L k := by
  obtain ⟨pre, c, post, h1, h2, h3, h4, h5⟩ := h
  rcases List.append_eq_append_iff.mp h1 with ⟨a, e1, e2⟩ | ⟨a, e1, e2⟩
  · obtain ⟨c', k1, k2, k3⟩ := hk
    exact absurd k3 (h4 c' (by rw [e1]; simp [k1]) k2)
  · cases a with
    | nil =>
      simp only [List.append_nil] at e1
      obtain ⟨c', k1, k2, k3⟩ := hk
      exact absurd k3 (h4 c' (by rw [← e1]; exact k1) k2)
    | cons x a =>
      rw [List.cons_append, List.cons.injEq] at e2
      refine ⟨pre, c, a, ?_, h2, h3, h4, h5⟩
      rw [e1, e2.1]

/-- State of the second loop of `Codebook::new`. -/
structure FInv (m : Mode) (L : List Code) (T0 : List Nat) (M0 : EscapeCodes) (pre : List Code)
    (T : List Nat) (M : EscapeCodes) (A : List (Nat × Nat)) : Prop where
  p : PInv true m L T0 0 T (shorts pre) A
  keys : M.map (·.1) = M0.map (·.1)
  bucket : ∀ kb ∈ M, IsBucket m L kb
  ofs : ∀ kb ∈ M, kb.1 ∈ A.map (·.1) → Codebook.ofs kb ∈ A
  done : ∀ c ∈ pre, 10 < c.bits → keyOf m c ∈ A.map (·.1) ∨ Spill m pre (keyOf m c)
  sub : ∀ k ∈ A.map (·.1), k ∈ M0.map (·.1)
  first : ∀ k ∈ A.map (·.1), ¬ Spill m pre k ∧ ∃ c ∈ pre, 10 < c.bits ∧ keyOf m c = k
  zero : ∀ kb ∈ M, kb.1 ∉ A.map (·.1) → kb.2.offset = 0

/-- No short code is listed before the first long code of a group it starts. -/
def LF (m : Mode) (L : List Code) : Prop :=
  ∀ pre c post, L = pre ++ c :: post → 10 < c.bits →
    (∀ c' ∈ pre, 10 < c'.bits → keyOf m c' ≠ keyOf m c) →
    ∀ s ∈ pre, s.bits ≤ 10 → top m 10 s.bits (keyOf m c) ≠ s.code

theorem PF.lf {m : Mode} {L : List Code} (h : PF m L) : LF m L := by
  intro pre c post hL hb _ s hs hsb
  exact short_long h (by rw [hL]; simp [hs]) hsb (by rw [hL]; simp) hb

theorem LF.no_spill {m : Mode} {L : List Code} (h : LF m L) (k : Nat) : ¬ Spill m L k := by
  rintro ⟨pre, c, post, h1, h2, h3, h4, s, s1, s2, s3⟩
  subst h3
  exact h pre c post h1 h2 h4 s s1 s2 s3

theorem fillFold {m : Mode} {L : List Code} {T0 : List Nat} {M0 : EscapeCodes}
    (hT0 : ∀ i, i < 2 ^ nb L → T0[i]? = some FILL)
    (hwf : CWF (maxLen m) L) (hM0 : Grouped m L M0) (hsz : T0.length + ((Codebook.keys m L).map fun k => 2 ^ nb (Codebook.sub m L k)).sum ≤ 2 ^ 24)
    (hcount : L.length < 2 ^ 32)
    (ds : List (Desc S)) (pre : List Code) (hL : pre ++ codesFrom pre.length ds = L)
    {T : List Nat} {M : EscapeCodes} {A : List (Nat × Nat)} (hF : FInv m L T0 M0 pre T M A) :
    ∃ T' M' A', ds.foldlM (fillStep m (nb L)) ⟨T, M, pre.length⟩ = .ok ⟨T', M', L.length⟩ ∧
      FInv m L T0 M0 L T' M' A' := by
  induction ds generalizing pre T M A with
  | nil =>
    simp only [codesFrom, List.append_nil] at hL
    subst hL
    exact ⟨T, M, A, rfl, hF⟩
  | cons d ds ih =>
    by_cases h0 : d.bits = 0
    · simp only [codesFrom, h0, if_true] at hL
      obtain ⟨T', M', A', a1, a2⟩ := ih pre hL hF
      refine ⟨T', M', A', ?_, a2⟩
      rw [List.foldlM_cons, ← a1]
      simp only [fillStep, h0, if_true, ok_bind]
    · simp only [codesFrom, h0, if_false] at hL
      have hc : (⟨d.code, d.bits, pre.length⟩ : Code) ∈ L := by rw [← hL]; simp
      obtain ⟨w1, w2, w3, w4⟩ := hwf _ hc
      have hlt : pre.length + 1 < 2 ^ 32 + 1 := by
        have : L.length = pre.length + (1 + (codesFrom (pre.length + 1) ds).length) := by
          rw [← hL]; simp; omega
        omega
      have hlt2 : pre.length + 1 < 2 ^ 32 := by simp only at w4; omega
      have hlen : (pre ++ [(⟨d.code, d.bits, pre.length⟩ : Code)]).length = pre.length + 1 := by simp
      have hL' : (pre ++ [(⟨d.code, d.bits, pre.length⟩ : Code)]) ++
          codesFrom (pre ++ [(⟨d.code, d.bits, pre.length⟩ : Code)]).length ds = L := by
        rw [hlen, List.append_assoc]; exact hL
      have hfirst : ∀ k ∈ A.map (·.1), ¬ Spill m (pre ++ [(⟨d.code, d.bits, pre.length⟩ : Code)]) k ∧
          ∃ c ∈ pre ++ [(⟨d.code, d.bits, pre.length⟩ : Code)], 10 < c.bits ∧ keyOf m c = k := by
        intro k hk
        obtain ⟨q1, c, q2, q3⟩ := hF.first k hk
        exact ⟨fun h => q1 (h.of_append ⟨c, q2, q3⟩), c, by simp [q2], q3⟩
      by_cases hb : d.bits ≤ 10
      · obtain ⟨T1, f1, f2⟩ := hF.p.fillCode (.inl rfl) hwf hc hb
        simp only at f1 w4
        rw [Nat.mod_eq_of_lt (by omega)] at f1
        have e1 : shorts (pre ++ [(⟨d.code, d.bits, pre.length⟩ : Code)]) =
            shorts pre ++ [⟨d.code, d.bits, pre.length⟩] := by simp [shorts, hb]
        obtain ⟨T', M', A', a1, a2⟩ := ih _ hL' (T := T1) (M := M) (A := A)
          ⟨by rw [e1]; exact f2, hF.keys, hF.bucket, hF.ofs, by
            intro c hcm hcb
            rcases List.mem_append.mp hcm with h | h
            · exact (hF.done c h hcb).imp id fun h => h.append _
            · simp only [List.mem_singleton] at h; subst h; simp only at hcb; omega, hF.sub, hfirst, hF.zero⟩
        rw [hlen] at a1
        refine ⟨T', M', A', ?_, a2⟩
        rw [List.foldlM_cons, ← a1]
        simp only [fillStep, h0, if_false, f1, ok_bind, pure_eq_ok, add32_ok hlt2]
        rw [if_pos (by simpa [MAX_LUT_BITS] using hb)]
        rfl
      · have hb' : 10 < d.bits := by omega
        have e1 := extractLut_ok (m := m) (c := ⟨d.code, d.bits, pre.length⟩) hb' w2
        simp only at e1
        have e2 : shorts (pre ++ [(⟨d.code, d.bits, pre.length⟩ : Code)]) = shorts pre := by
          simp [shorts, hb]
        have hs : Codebook.sub m L (keyOf m ⟨d.code, d.bits, pre.length⟩) ≠ [] :=
          List.ne_nil_of_mem (mem_sub.mpr ⟨_, hc, hb', rfl, rfl⟩)
        obtain ⟨k1, k2, _⟩ := key_lt hwf hs
        by_cases hA : keyOf m ⟨d.code, d.bits, pre.length⟩ ∈ A.map (·.1)
        · obtain ⟨ko, hko, hko2⟩ := List.mem_map.mp hA
          obtain ⟨_, x2, x3⟩ := hF.p.esc ko hko
          rw [Nat.zero_add, hko2] at x3
          obtain ⟨ent, hidx, hne⟩ : ∃ v, idx T (keyOf m ⟨d.code, d.bits, pre.length⟩) = .ok v ∧ ¬ v = FILL := by
            cases hh : hitOf m (nb L) (keyOf m ⟨d.code, d.bits, pre.length⟩) (shorts pre) with
            | none =>
              obtain ⟨y1, y2⟩ := List.getElem?_eq_some_iff.mp (x3 fun _ => hh)
              refine ⟨_, idx_ok y1, ?_⟩
              rw [y2]
              exact (escVal_dec x2 (nb_le (Codebook.sub m L (keyOf m ⟨d.code, d.bits, pre.length⟩)))).1
            | some c' =>
              have x4 := hF.p.leaf _ c' k2 hh (.inl rfl)
              rw [Nat.zero_add] at x4
              obtain ⟨y1, y2⟩ := List.getElem?_eq_some_iff.mp x4
              refine ⟨_, idx_ok y1, ?_⟩
              rw [y2]
              obtain ⟨z1, z2⟩ := hF.p.mem c' (hitOf_some hh).1
              exact (leafVal_dec (hwf c' z1).2.2.2 z2).1
          obtain ⟨T', M', A', a1, a2⟩ := ih _ hL' (T := T) (M := M) (A := A)
            ⟨by rw [e2]; exact hF.p, hF.keys, hF.bucket, hF.ofs, by
              intro c hcm hcb
              rcases List.mem_append.mp hcm with h | h
              · exact (hF.done c h hcb).imp id fun h => h.append _
              · simp only [List.mem_singleton] at h; subst h; exact .inl hA, hF.sub, hfirst, hF.zero⟩
          rw [hlen] at a1
          refine ⟨T', M', A', ?_, a2⟩
          rw [List.foldlM_cons, ← a1]
          simp only [fillStep, h0, if_false, e1, hidx, ok_bind, pure_eq_ok, add32_ok hlt2, hne]
          rw [if_neg (by simpa [MAX_LUT_BITS] using hb)]
          rfl
        · by_cases hhit : hitOf m (nb L) (keyOf m ⟨d.code, d.bits, pre.length⟩) (shorts pre) ≠ none
          · obtain ⟨c', hh⟩ := Option.ne_none_iff_exists'.mp hhit
            have x4 := hF.p.leaf _ c' k2 hh (.inl rfl)
            rw [Nat.zero_add] at x4
            obtain ⟨y1, y2⟩ := List.getElem?_eq_some_iff.mp x4
            have hidx : idx T (keyOf m ⟨d.code, d.bits, pre.length⟩) = .ok _ := idx_ok y1
            rw [y2] at hidx
            obtain ⟨z0, z3⟩ := hitOf_some hh
            obtain ⟨z1, z2⟩ := hF.p.mem c' z0
            have hne := (leafVal_dec (hwf c' z1).2.2.2 z2).1
            obtain ⟨z4, z5⟩ := List.mem_filter.mp z0
            rw [k1] at z3
            obtain ⟨T', M', A', a1, a2⟩ := ih _ hL' (T := T) (M := M) (A := A)
              ⟨by rw [e2]; exact hF.p, hF.keys, hF.bucket, hF.ofs, by
                intro c hcm hcb
                rcases List.mem_append.mp hcm with h | h
                · exact (hF.done c h hcb).imp id fun h => h.append _
                · simp only [List.mem_singleton] at h
                  subst h
                  refine .inr ?_
                  by_cases hex : ∃ c ∈ pre, 10 < c.bits ∧ keyOf m c = keyOf m ⟨d.code, d.bits, pre.length⟩
                  · obtain ⟨c, q1, q2, q3⟩ := hex
                    rcases hF.done c q1 q2 with h | h
                    · rw [q3] at h; exact absurd h hA
                    · rw [q3] at h; exact h.append _
                  · refine ⟨pre, _, [], rfl, hb', rfl, ?_, c', z4, z2, z3⟩
                    intro c'' q1 q2 q3
                    exact hex ⟨c'', q1, q2, q3⟩, hF.sub, hfirst, hF.zero⟩
            rw [hlen] at a1
            refine ⟨T', M', A', ?_, a2⟩
            rw [List.foldlM_cons, ← a1]
            simp only [fillStep, h0, if_false, e1, hidx, ok_bind, pure_eq_ok, add32_ok hlt2, hne]
            rw [if_neg (by simpa [MAX_LUT_BITS] using hb)]
            rfl
          have hnone : hitOf m (nb L) (keyOf m ⟨d.code, d.bits, pre.length⟩) (shorts pre) = none := by
            simpa using hhit
          have hpre : ∀ c' ∈ pre, 10 < c'.bits → keyOf m c' ≠ keyOf m ⟨d.code, d.bits, pre.length⟩ := by
            intro c' q1 q2 q3
            rcases hF.done c' q1 q2 with h | h
            · rw [q3] at h; exact hA h
            · rw [q3] at h
              obtain ⟨pre', x, post, g1, _, _, _, t, g5, g6, g7⟩ := h
              refine hitOf_none.mp hnone t (List.mem_filter.mpr ⟨by rw [g1]; simp [g5], by simpa using g6⟩) ?_
              rw [k1]; exact g7
          have hfill := hF.p.fill _ k2 hA hnone
          rw [Nat.zero_add, hT0 _ k2] at hfill
          obtain ⟨y1, y2⟩ := List.getElem?_eq_some_iff.mp hfill
          have hidx : idx T (keyOf m ⟨d.code, d.bits, pre.length⟩) = .ok _ := idx_ok y1
          rw [y2] at hidx
          have hnd : (M.map (·.1)).Nodup := by rw [hF.keys]; exact hM0.nodup
          have hkM0 : keyOf m ⟨d.code, d.bits, pre.length⟩ ∈ M0.map (·.1) := by
            apply Classical.byContradiction
            intro hnot
            have := get_none.mpr hnot
            rw [hM0.get, bucketOf, if_neg hs] at this
            cases this
          obtain ⟨b, hget⟩ : ∃ b, EscapeCodes.get M (keyOf m ⟨d.code, d.bits, pre.length⟩) = some b := by
            cases hg : EscapeCodes.get M (keyOf m ⟨d.code, d.bits, pre.length⟩) with
            | some b => exact ⟨b, rfl⟩
            | none => rw [get_none, hF.keys] at hg; exact absurd hkM0 hg
          have hbk := hF.bucket _ (get_mem hget)
          have hpos := Nat.two_pow_pos (nb (Codebook.sub m L (keyOf m ⟨d.code, d.bits, pre.length⟩)))
          have hAlen : 2 ^ nb (Codebook.sub m L (keyOf m ⟨d.code, d.bits, pre.length⟩)) +
              (A.map fun a => 2 ^ nb (Codebook.sub m L a.1)).sum ≤
              ((Codebook.keys m L).map fun k => 2 ^ nb (Codebook.sub m L k)).sum := by
            have h1 : (keyOf m ⟨d.code, d.bits, pre.length⟩ :: A.map (·.1)).Nodup :=
              List.nodup_cons.mpr ⟨hA, hF.p.keys⟩
            have := sum_le_of_nodup (fun k => 2 ^ nb (Codebook.sub m L k)) h1 (l' := Codebook.keys m L) (by
              intro x hx
              rw [mem_keys hwf.cb, ← hM0.mem]
              rcases List.mem_cons.mp hx with rfl | hx
              · exact hkM0
              · exact hF.sub x hx)
            simpa [List.map_map, Function.comp_def] using this
          have hcap := hF.p.cap
          obtain ⟨T1, f1, f2, f3⟩ := hF.p.alloc hwf (b := b) hs (fun _ => hnone) hbk.2.2 hA (by
            generalize 2 ^ 24 = B at *
            omega)
          obtain ⟨T', M', A', a1, a2⟩ := ih _ hL' (T := T1)
            (M := EscapeCodes.put M (keyOf m ⟨d.code, d.bits, pre.length⟩) { b with offset := T.length })
            (A := (keyOf m ⟨d.code, d.bits, pre.length⟩, T.length) :: A)
            ⟨by rw [e2]; exact f2, by rw [put_keys]; exact hF.keys, by
              intro kb hkb
              rcases mem_put hnd hkb with rfl | ⟨_, h⟩
              · exact hbk
              · exact hF.bucket kb h, by
              intro kb hkb hmem
              rcases mem_put hnd hkb with rfl | ⟨hne, h⟩
              · simp [Codebook.ofs]
              · simp only [List.map_cons, List.mem_cons, hne, false_or] at hmem
                exact List.mem_cons_of_mem _ (hF.ofs kb h hmem), by
              intro c hcm hcb
              rcases List.mem_append.mp hcm with h | h
              · exact (hF.done c h hcb).imp (List.mem_cons_of_mem _) fun h => h.append _
              · simp only [List.mem_singleton] at h; subst h; simp, by
              intro k hk
              simp only [List.map_cons, List.mem_cons] at hk
              rcases hk with rfl | hk
              · exact hkM0
              · exact hF.sub k hk, by
              intro k hk
              simp only [List.map_cons, List.mem_cons] at hk
              rcases hk with rfl | hk
              · refine ⟨?_, _, List.mem_append.mpr (.inr (List.mem_singleton.mpr rfl)), hb', rfl⟩
                rintro ⟨pre', x, post, g1, g2, g3, g4, t, g5, g6, g7⟩
                refine hitOf_none.mp hnone t (List.mem_filter.mpr ⟨?_, by simpa using g6⟩) (by rw [k1]; exact g7)
                rcases List.append_eq_append_iff.mp g1 with ⟨a, e1, e2⟩ | ⟨a, e1, e2⟩
                · cases a with
                  | nil => rw [e1] at g5; simpa using g5
                  | cons y a => simp at e2
                · rw [e1]; simp [g5]
              · exact hfirst k hk, by
              intro kb hkb hnot
              simp only [List.map_cons, List.mem_cons, not_or] at hnot
              rcases mem_put hnd hkb with rfl | ⟨_, h⟩
              · exact absurd rfl hnot.1
              · exact hF.zero kb h hnot.2⟩
          rw [hlen] at a1
          refine ⟨T', M', A', ?_, a2⟩
          rw [List.foldlM_cons, ← a1]
          simp only [fillStep, h0, if_false, e1, hidx, ok_bind, pure_eq_ok, add32_ok hlt2, if_true, hget, f1]
          rw [if_neg (by simpa [MAX_LUT_BITS] using hb)]
          rfl

theorem codesFrom_length (k : Nat) (ds : List (Desc S)) : (codesFrom k ds).length = (used ds).length := by
  induction ds generalizing k with
  | nil => rfl
  | cons d ds ih =>
    by_cases h : d.bits = 0
    · simp [codesFrom, h, used] at ih ⊢; exact ih k
    · simp [codesFrom, h, used, show 0 < d.bits by omega] at ih ⊢; exact ih (k + 1)

theorem mem_codesFrom {k : Nat} {ds : List (Desc S)} {c : Code} (h : c ∈ codesFrom k ds) :
    k ≤ c.idx ∧ ∃ d, (used ds)[c.idx - k]? = some d ∧ d.code = c.code ∧ d.bits = c.bits := by
  induction ds generalizing k with
  | nil => cases h
  | cons d ds ih =>
    by_cases h0 : d.bits = 0
    · simp only [codesFrom, h0, if_true] at h
      obtain ⟨h1, h2⟩ := ih h
      exact ⟨h1, by simpa [used, h0] using h2⟩
    · simp only [codesFrom, h0, if_false, List.mem_cons] at h
      rcases h with rfl | h
      · exact ⟨Nat.le_refl _, d, by simp [used, show 0 < d.bits by omega], rfl, rfl⟩
      · obtain ⟨h1, d', h2, h3⟩ := ih h
        refine ⟨by omega, d', ?_, h3⟩
        have : used (d :: ds) = d :: used ds := by simp [used, show 0 < d.bits by omega]
        rw [this, show c.idx - k = (c.idx - (k + 1)) + 1 by omega]
        simpa using h2

theorem codesFrom_get {k : Nat} {ds : List (Desc S)} {j : Nat} {d : Desc S} (h : (used ds)[j]? = some d) :
    ⟨d.code, d.bits, k + j⟩ ∈ codesFrom k ds := by
  induction ds generalizing k j with
  | nil => simp [used] at h
  | cons d' ds ih =>
    by_cases h0 : d'.bits = 0
    · have : used (d' :: ds) = used ds := by simp [used, h0]
      rw [this] at h
      simp only [codesFrom, h0, if_true]
      exact ih h
    · have : used (d' :: ds) = d' :: used ds := by simp [used, show 0 < d'.bits by omega]
      rw [this] at h
      simp only [codesFrom, h0, if_false]
      cases j with
      | zero => simp at h; subst h; simp
      | succ j =>
        simp only [List.getElem?_cons_succ] at h
        have := ih (k := k + 1) h
        rw [show k + 1 + j = k + (j + 1) by omega] at this
        exact List.mem_cons_of_mem _ this

theorem codesFrom_pairs (k : Nat) (ds : List (Desc S)) :
    (codesFrom k ds).map (fun c => (c.code, c.bits)) = (used ds).map (fun d => (d.code, d.bits)) := by
  induction ds generalizing k with
  | nil => rfl
  | cons d ds ih =>
    by_cases h : d.bits = 0
    · have : used (d :: ds) = used ds := by simp [used, h]
      simp only [codesFrom, h, if_true, this, ih]
    · have : used (d :: ds) = d :: used ds := by simp [used, show 0 < d.bits by omega]
      simp only [codesFrom, h, if_false, this, List.map_cons, ih]

theorem codesFrom_PF {m : Mode} {k : Nat} {ds : List (Desc S)} (hwf : WF m ds) (h : PrefixFree m ds) :
    PF m (codesFrom k ds) := by
  have key : (used ds).Pairwise fun a b =>
      ¬ (a.bits ≤ b.bits ∧ top m b.bits a.bits b.code = a.code) ∧
      ¬ (b.bits ≤ a.bits ∧ top m a.bits b.bits a.code = b.code) := by
    refine List.Pairwise.imp_of_mem ?_ h
    intro a b ha hb hab
    have wa := hwf a ha
    have wb := hwf b hb
    rw [prefix_iff wa.2 wb.2, prefix_iff wb.2 wa.2] at hab
    exact hab
  have h2 : ((used ds).map fun d => (d.code, d.bits)).Pairwise fun a b : Nat × Nat =>
      ¬ (a.2 ≤ b.2 ∧ top m b.2 a.2 b.1 = a.1) ∧ ¬ (b.2 ≤ a.2 ∧ top m a.2 b.2 a.1 = b.1) := by
    rw [List.pairwise_map]; exact key
  rw [← codesFrom_pairs k, List.pairwise_map] at h2
  exact h2

theorem codesFrom_CWF {ds : List (Desc S)} (hwf : WF m ds) (hn : (used ds).length ≤ 2 ^ 24) :
    CWF (maxLen m) (codesFrom 0 ds) := by
  intro c hc
  obtain ⟨_, d, h1, h2, h3⟩ := mem_codesFrom hc
  have hm : d ∈ used ds := List.mem_of_getElem? h1
  have hlt := (List.getElem?_eq_some_iff.mp h1).1
  obtain ⟨w1, w2⟩ := hwf d hm
  have : d.bits > 0 := by simpa [used] using (List.mem_filter.mp hm).2
  rw [← h2, ← h3]
  exact ⟨this, w1, w2, by omega⟩

theorem codesFrom_cost (ds : List (Desc S)) : 1024 + cost (codesFrom 0 ds) = tableBound ds := by
  unfold cost tableBound cost1
  have := codesFrom_pairs 0 ds
  have h2 := congrArg (List.map fun p : Nat × Nat => 1024 * ((p.2 - 1) / 10)) this
  simp only [List.map_map] at h2
  have e1 : ((fun p : Nat × Nat => 1024 * ((p.2 - 1) / 10)) ∘ fun c : Code => (c.code, c.bits)) =
      fun c => 1024 * ((c.bits - 1) / 10) := rfl
  have e2 : ((fun p : Nat × Nat => 1024 * ((p.2 - 1) / 10)) ∘ fun d : Desc S => (d.code, d.bits)) =
      fun d => 1024 * ((d.bits - 1) / 10) := rfl
  rw [e1, e2] at h2
  rw [h2]

theorem words_codes (m : Mode) (k : Nat) (ds : List (Desc S)) : words m (codesFrom k ds) = wordsOf m ds := by
  have := congrArg (List.map fun p : Nat × Nat => codeBits m p.1 p.2) (codesFrom_pairs k ds)
  rw [List.map_map, List.map_map] at this
  exact this

theorem codesFrom_CB {m : Mode} {ds : List (Desc S)} (hwf : WF m ds) : CB (maxLen m) (codesFrom 0 ds) := by
  intro c hc
  obtain ⟨_, d, h1, h2, h3⟩ := mem_codesFrom hc
  have hm : d ∈ used ds := List.mem_of_getElem? h1
  obtain ⟨w1, w2⟩ := hwf d hm
  have : d.bits > 0 := by simpa [used] using (List.mem_filter.mp hm).2
  rw [← h2, ← h3]
  exact ⟨this, w1, w2⟩

theorem tableSize_eq {m : Mode} {ds : List (Desc S)} (hwf : WF m ds) (hne : codesFrom 0 ds ≠ []) :
    tsize m 27 (codesFrom 0 ds) = tableSize m ds := by
  have hml := maxLen_le m
  obtain ⟨ps, h1, h2⟩ := tsize_sized m 27 (maxLen m) _ (codesFrom_CB hwf) (by omega) hne
  rw [words_codes] at h1 h2
  rw [h2]
  exact partsSize_heads h1 (heads_heads _)

/-- Everything up to the last loop, which is the only place where the order of a hash map matters. -/
theorem new_start {m : Mode} {ds : List (Desc S)} (hwf : WF m ds) (hfit : Fits m ds) (hne : used ds ≠ []) :
    ∃ M0 T1 M1 A, Grouped m (codesFrom 0 ds) M0 ∧
      FInv m (codesFrom 0 ds) (List.replicate (2 ^ nb (codesFrom 0 ds)) FILL) M0 (codesFrom 0 ds) T1 M1 A ∧
      2 ^ nb (codesFrom 0 ds) + ((keys m (codesFrom 0 ds)).map fun k =>
        tsize m 26 (sub m (codesFrom 0 ds) k)).sum ≤ 2 ^ 24 ∧
      ∀ ord : Order, new ord m ds = (do
        let table ← (ord [] 1 M1).foldlM (fun t kb => buildEscLut ord m 26 [kb.1] t kb.2) T1
        return .ok ⟨table, (used ds).map (·.sym), nb (codesFrom 0 ds)⟩) := by
  have hCWF := codesFrom_CWF hwf hfit.2
  have hb32 : ∀ d ∈ ds, d.bits ≤ maxLen m := by
    intro d hd
    by_cases h : d.bits = 0
    · omega
    · exact (hwf d (List.mem_filter.mpr ⟨hd, by simp; omega⟩)).1
  obtain ⟨M0, g1, g2⟩ := gatherFold (m := m) ds [] [] hb32 (Grouped.nil m)
  simp only [List.nil_append, List.length_nil] at g1 g2
  have hL : codesFrom 0 ds ≠ [] := by
    intro h
    have := codesFrom_length 0 ds
    rw [h] at this
    exact hne (List.length_eq_zero_iff.mp this.symm)
  obtain ⟨c0, hc0⟩ := List.exists_mem_of_ne_nil _ hL
  have hml : 0 < maxlen (codesFrom 0 ds) := by
    have := le_maxlen hc0; have := (hCWF c0 hc0).1; omega
  have hnb : (if maxlen (codesFrom 0 ds) > MAX_LUT_BITS then MAX_LUT_BITS else maxlen (codesFrom 0 ds)) =
      nb (codesFrom 0 ds) := by unfold nb MAX_LUT_BITS; split <;> omega
  have hCB := codesFrom_CB hwf
  have hts : 2 ^ nb (codesFrom 0 ds) + ((keys m (codesFrom 0 ds)).map fun k =>
      tsize m 26 (sub m (codesFrom 0 ds) k)).sum ≤ 2 ^ 24 := by
    have := hfit.1
    rw [← tableSize_eq hwf hL] at this
    exact this
  have hg : ∀ k ∈ keys m (codesFrom 0 ds), 2 ^ nb (sub m (codesFrom 0 ds) k) ≤ tsize m 26 (sub m (codesFrom 0 ds) k) :=
    fun k _ => Nat.le_add_right _ _
  have hsum := sum_le_sum hg
  have hT0 : (List.replicate (2 ^ nb (codesFrom 0 ds)) FILL).length = 2 ^ nb (codesFrom 0 ds) := by
    simp
  have hF0 : FInv m (codesFrom 0 ds) (List.replicate (2 ^ nb (codesFrom 0 ds)) FILL) M0 []
      (List.replicate (2 ^ nb (codesFrom 0 ds)) FILL) M0 [] := by
    refine ⟨PInv.init (by rw [hT0]; omega), rfl, ?_, by simp, by simp, by simp, by simp, ?_⟩
    rotate_left
    · intro kb hkb _
      have := mem_get g2.nodup (show (kb.1, kb.2) ∈ M0 from hkb)
      rw [g2.get] at this
      exact bucketOf_offset this
    · intro kb hkb
      have := mem_get g2.nodup (show (kb.1, kb.2) ∈ M0 from hkb)
      rw [g2.get] at this
      exact bucketOf_some this
  have hfill : ∀ i, i < 2 ^ nb (codesFrom 0 ds) →
      (List.replicate (2 ^ nb (codesFrom 0 ds)) FILL)[i]? = some FILL := by
    intro i hi
    rw [List.getElem?_replicate, if_pos hi]
  obtain ⟨T1, M1, A, f1, f2⟩ := fillFold hfill hCWF g2 (by rw [hT0]; omega)
    (by rw [codesFrom_length]; have := hfit.2; omega) ds [] rfl hF0
  simp only [List.length_nil] at f1
  refine ⟨M0, T1, M1, A, g2, f2, hts, ?_⟩
  intro ord
  unfold new
  have g1' : ds.foldlM (gatherStep m) { maxbits := 0, esc := [], symidx := 0 } = _ := g1
  rw [g1']
  simp only [ok_bind, show ¬ maxlen (codesFrom 0 ds) = 0 by omega, if_false, hnb]
  rw [Nat.shiftLeft_eq, Nat.one_mul, f1]
  rfl

theorem new_trie {ord : Order} (hord : ord.Valid) {m : Mode} {ds : List (Desc S)} (hwf : WF m ds)
    (hPF : LF m (codesFrom 0 ds)) (hfit : Fits m ds) (hne : used ds ≠ []) :
    ∃ T, new ord m ds = .ok (.ok ⟨T, (used ds).map (·.sym), nb (codesFrom 0 ds)⟩) ∧
      TrieOK m true 26 T (fun _ => True) 0 (codesFrom 0 ds) := by
  have hCWF := codesFrom_CWF hwf hfit.2
  have hCB := codesFrom_CB hwf
  obtain ⟨M0, T1, M1, A, g2, f2, hts, hnew⟩ := new_start hwf hfit hne
  have hT0 : (List.replicate (2 ^ nb (codesFrom 0 ds)) FILL).length = 2 ^ nb (codesFrom 0 ds) := by simp
  have hg : ∀ k ∈ keys m (codesFrom 0 ds), 2 ^ nb (sub m (codesFrom 0 ds) k) ≤ tsize m 26 (sub m (codesFrom 0 ds) k) :=
    fun k _ => Nat.le_add_right _ _
  have hsum := sum_le_sum hg
  have hfill : ∀ i, i < 2 ^ nb (codesFrom 0 ds) →
      (List.replicate (2 ^ nb (codesFrom 0 ds)) FILL)[i]? = some FILL := by
    intro i hi
    rw [List.getElem?_replicate, if_pos hi]
  have hp1 := hord [] 1 M1
  have hkeys : ∀ kb ∈ M1, kb.1 ∈ A.map (·.1) := by
    intro kb hkb
    obtain ⟨_, _, c, k3, k4, k5⟩ := key_lt hCWF (f2.bucket kb hkb).1
    rw [← k5]
    exact (f2.done c k3 k4).resolve_right (hPF.no_spill _)
  have hAlen : (A.map fun a => 2 ^ nb (sub m (codesFrom 0 ds) a.1)).sum ≤
      ((keys m (codesFrom 0 ds)).map fun k => 2 ^ nb (sub m (codesFrom 0 ds) k)).sum := by
    have := sum_le_of_nodup (fun k => 2 ^ nb (sub m (codesFrom 0 ds) k)) f2.p.keys (l' := keys m (codesFrom 0 ds))
      fun k hk => (mem_keys hCB).mpr (g2.mem.mp (f2.sub k hk))
    simpa [List.map_map, Function.comp_def] using this
  have hcap := f2.p.cap
  have hb1 : ∀ kb ∈ ord [] 1 M1, IsBucket m (codesFrom 0 ds) kb := fun kb h => f2.bucket kb (hp1.mem_iff.mp h)
  have hk1 : ((ord [] 1 M1).map (·.1)).Perm (keys m (codesFrom 0 ds)) := by
    refine (hp1.map _).trans ?_
    rw [f2.keys]
    exact g2.keys hCB
  have hs1 := sum_keys (fun l => 2 ^ nb l) hk1 hb1
  have hs2 := sum_keys (fun l => tsize m 26 l) hk1 hb1
  obtain ⟨T2, c1, c2, c3, c4, c5⟩ := finishNode (d := 25) (Q := ord [] 1 M1)
    (build := fun t kb => buildEscLut ord m 26 [kb.1] t kb.2) f2.p
    (fun kb h => f2.bucket kb (hp1.mem_iff.mp h))
    (fun kb h => f2.ofs kb (hp1.mem_iff.mp h) (hkeys kb (hp1.mem_iff.mp h)))
    ((hp1.map (·.1)).nodup_iff.mpr (by rw [f2.keys]; exact g2.nodup))
    (fun k hk => by
      rw [(hp1.map (·.1)).mem_iff, f2.keys]
      apply Classical.byContradiction
      intro hnot
      have := get_none.mpr hnot
      rw [g2.get, bucketOf, if_neg hk] at this
      cases this)
    (tsize m 26)
    (fun kb h => by
      rw [(hb1 kb h).2.1]
      exact hg _ ((mem_keys hCB).mpr (hb1 kb h).1))
    (by omega)
    (by
      intro kb hkb T h1 h2 h3
      obtain ⟨i1, i2, i3⟩ := f2.bucket kb (hp1.mem_iff.mp hkb)
      have hw := hCWF.sub (m := m) kb.1
      have hml := maxLen_le m
      refine buildEscLut_spec hord 25 26 (by omega) _ kb.2 T (by rw [i2, i3])
        ?_ ?_ (by rw [i2]; exact i1) h1 h2 h3
      · rw [i2]
        intro c hc
        have := hw c hc
        exact ⟨this.1, by omega, this.2.2⟩
      · rw [i2]
        intro c hc
        have := hw c hc
        exact ⟨this.1, by omega, this.2.2⟩)
  refine ⟨T2, ?_, c4.ok (fun i hi => by rw [Nat.zero_add]; exact hfill i hi) (fun _ _ => trivial) (fun _ _ => trivial)⟩
  rw [hnew ord, c1]
  rfl

theorem new_ok {ord : Order} (hord : ord.Valid) {m : Mode} {ds : List (Desc S)} (hwf : WF m ds)
    (hpf : PrefixFree m ds) (hfit : Fits m ds) (hne : used ds ≠ []) :
    ∃ T, new ord m ds = .ok (.ok ⟨T, (used ds).map (·.sym), nb (codesFrom 0 ds)⟩) ∧
      NodeOK m 26 T (fun _ => True) 0 (codesFrom 0 ds) := by
  have hPF := codesFrom_PF (k := 0) hwf hpf
  obtain ⟨T, h1, h2⟩ := new_trie hord hwf hPF.lf hfit hne
  exact ⟨T, h1, h2.node hPF (codesFrom_CWF hwf hfit.2)⟩

end Verif.Codebook
