import Verif.Codebook.New

/-! # Helper lemmas: the first table of any book

A group of long codes whose entry of the first table is taken by a short code when the first of them is met
gets no part of the table. Its codes are written over the first table, in the order of the hash map. -/

namespace Verif.Codebook
open Verif Verif.BitRead

/-- What an entry of the first table tells. -/
inductive Cell
  | empty
  | leaf (c : Code)
  | node (L : List Code)

def CellOK (m : Mode) (d : Nat) (T : List Nat) (F : Nat → Prop) (i : Nat) : Cell → Prop
  | .empty => T[i]? = some FILL
  | .leaf c => T[i]? = some (leafVal c.idx c.bits)
  | .node L => ∃ o, o < 2 ^ 24 ∧ T[i]? = some (escVal o (nb L)) ∧ TrieOK m false d T F o L

/-- The entry if nothing is written over it. -/
def firstCell (m : Mode) (L : List Code) (i : Nat) : Cell :=
  match hitOf m (nb L) i (shorts L) with
  | some c => .leaf c
  | none => if sub m L i = [] then .empty else .node (sub m L i)

/-- What a group without a part of its own writes there. -/
def speak (m : Mode) (L : List Code) (i : Nat) : Option Cell :=
  if i < 2 ^ nb L then
    if sub m L i = [] then (hitOf m (nb L) i (shorts L)).map .leaf else some (.node (sub m L i))
  else none

/-- What the last of the groups `ks` that has anything to write there writes. -/
def overs (m : Mode) (L : List Code) (ks : List Nat) (i : Nat) : Option Cell :=
  ks.reverse.findSome? fun k => speak m (sub m L k) i

def topCell (m : Mode) (L : List Code) (ks : List Nat) (i : Nat) : Cell :=
  (overs m L ks i).getD (firstCell m L i)

theorem CellOK.mono {m : Mode} {d : Nat} {T T' : List Nat} {F F' : Nat → Prop} {i : Nat} {c : Cell}
    (h : CellOK m d T F i c) (hF : ∀ j, F j → F' j) (hi : T'[i]? = T[i]?)
    (hT : ∀ j, F j → j < T.length → T'[j]? = T[j]?) : CellOK m d T' F' i c := by
  cases c with
  | empty => exact hi.trans h
  | leaf c => exact hi.trans h
  | node L =>
    obtain ⟨o, h1, h2, h3⟩ := h
    exact ⟨o, h1, hi.trans h2, h3.mono hF hT⟩

theorem TrieOver.speak {m : Mode} {d : Nat} {T : List Nat} {F : Nat → Prop} {prev : Nat → Option Nat}
    {L : List Code} (h : TrieOver m false d T F prev 0 L) (i : Nat) (hi : i < 2 ^ nb L) :
    match Codebook.speak m L i with
    | none => T[i]? = prev i
    | some c => CellOK m d T F i c := by
  have h := h i hi
  rw [Nat.zero_add] at h
  unfold Codebook.speak
  rw [if_pos hi]
  rcases h with ⟨c, h1, h2, h3⟩ | ⟨h1, h2, h3⟩ | ⟨h1, h2, h3⟩
  · rw [if_pos (h2.resolve_left (by simp)), h1]; exact h3
  · rw [if_pos h2, h1]; exact h3
  · rw [if_neg h1]; exact h3

theorem overs_cons (m : Mode) (L : List Code) (k : Nat) (ks : List Nat) (i : Nat) :
    overs m L (k :: ks) i = (overs m L ks i).or (speak m (sub m L k) i) := by
  unfold overs
  rw [List.reverse_cons, List.findSome?_append]
  congr 1
  simp [List.findSome?_cons]
  cases speak m (sub m L k) i <;> rfl

theorem overFold {m : Mode} {d : Nat} {build : List Nat → Nat × CodeBucket → Rust (List Nat)} (L : List Code)
    (sp : Nat → Bool) (N : Nat) (Q : EscapeCodes) (T : List Nat) (B : Nat) (g : List Code → Nat)
    (hg : ∀ kb ∈ Q, 2 ^ nb kb.2.codes ≤ g kb.2.codes)
    (hQ : ∀ kb ∈ Q, kb.2.codes = sub m L kb.1)
    (hN : ∀ kb ∈ Q, sp kb.1 = true → 2 ^ nb kb.2.codes ≤ N) (hNT : N ≤ T.length)
    (hb : ∀ kb ∈ Q, sp kb.1 = false → ∀ T : List Nat, kb.2.offset + 2 ^ nb kb.2.codes ≤ T.length →
      (∀ i, i < 2 ^ nb kb.2.codes → T[kb.2.offset + i]? = some FILL) →
      T.length + g kb.2.codes ≤ B + 2 ^ nb kb.2.codes →
      BuildSpec m d (g kb.2.codes) (fun T => build T kb) T kb.2.offset kb.2.codes)
    (hs : ∀ kb ∈ Q, sp kb.1 = true → ∀ T : List Nat, 2 ^ nb kb.2.codes ≤ T.length →
      T.length + g kb.2.codes ≤ B + 2 ^ nb kb.2.codes →
      OverSpec m d (g kb.2.codes) (fun T => build T kb) T 0 kb.2.codes)
    (hreg : ∀ kb ∈ Q, sp kb.1 = false → N ≤ kb.2.offset ∧ kb.2.offset + 2 ^ nb kb.2.codes ≤ T.length)
    (hfill : ∀ kb ∈ Q, sp kb.1 = false → ∀ i, i < 2 ^ nb kb.2.codes → T[kb.2.offset + i]? = some FILL)
    (hdisj : Q.Pairwise fun a b => sp a.1 = false → sp b.1 = false →
      (a.2.offset + 2 ^ nb a.2.codes ≤ b.2.offset ∨ b.2.offset + 2 ^ nb b.2.codes ≤ a.2.offset))
    (hsz : T.length + (Q.map fun kb => g kb.2.codes).sum ≤ B + (Q.map fun kb => 2 ^ nb kb.2.codes).sum) :
    ∃ T', Q.foldlM build T = .ok T' ∧ T.length ≤ T'.length ∧
      (∀ kb ∈ Q, sp kb.1 = false → TrieOK m false d T'
        (fun j => (kb.2.offset ≤ j ∧ j < kb.2.offset + 2 ^ nb kb.2.codes) ∨ T.length ≤ j)
        kb.2.offset kb.2.codes) ∧
      (∀ i, i < N → match overs m L ((Q.map (·.1)).filter sp) i with
        | none => T'[i]? = T[i]?
        | some c => CellOK m d T' (fun j => T.length ≤ j) i c) ∧
      ∀ j, N ≤ j → j < T.length →
        (∀ kb ∈ Q, sp kb.1 = false → j < kb.2.offset ∨ kb.2.offset + 2 ^ nb kb.2.codes ≤ j) → T'[j]? = T[j]? := by
  induction Q generalizing T with
  | nil => exact ⟨T, rfl, Nat.le_refl _, by simp, fun i _ => rfl, fun _ _ _ _ => rfl⟩
  | cons kb Q ih =>
    simp only [List.map_cons, List.sum_cons] at hsz ⊢
    have hrest : (Q.map fun kb => 2 ^ nb kb.2.codes).sum ≤ (Q.map fun kb => g kb.2.codes).sum :=
      sum_le_sum fun kb' h => hg kb' (by simp [h])
    rw [List.pairwise_cons] at hdisj
    have hreg' : ∀ kb' ∈ Q, sp kb'.1 = false → N ≤ kb'.2.offset ∧ kb'.2.offset + 2 ^ nb kb'.2.codes ≤ T.length :=
      fun kb' h => hreg kb' (by simp [h])
    by_cases hsp : sp kb.1 = true
    · have hn := hN kb (by simp) hsp
      obtain ⟨T1, a1, a2, a3, a4, a5⟩ := hs kb (by simp) hsp T (by omega) (by omega)
      obtain ⟨T2, b1, b2, b3, b4, b5⟩ := ih T1 (fun kb' h => hg kb' (by simp [h])) (fun kb' h => hQ kb' (by simp [h]))
        (fun kb' h => hN kb' (by simp [h])) (by omega) (fun kb' h => hb kb' (by simp [h]))
        (fun kb' h => hs kb' (by simp [h]))
        (fun kb' h h' => by have := hreg' kb' h h'; omega)
        (by
          intro kb' h h' i hi
          have h1 := hreg' kb' h h'
          rw [a5 _ (by omega) (.inr (by omega))]
          exact hfill kb' (by simp [h]) h' i hi)
        hdisj.2 (by omega)
      refine ⟨T2, ?_, by omega, ?_, ?_, ?_⟩
      · simp only at a1
        rw [List.foldlM_cons, a1]; exact b1
      · intro kb' h h'
        rcases List.mem_cons.mp h with rfl | h
        · rw [hsp] at h'; cases h'
        · refine (b3 kb' h h').mono ?_ (fun _ _ _ => rfl)
          intro j hj
          rcases hj with hj | hj
          · exact .inl hj
          · exact .inr (by omega)
      · intro i hi
        rw [List.filter_cons, if_pos hsp, overs_cons]
        have hb4 := b4 i hi
        cases ho : overs m L ((Q.map (·.1)).filter sp) i with
        | some c =>
          rw [ho] at hb4
          exact CellOK.mono hb4 (fun j hj => by omega) rfl (fun _ _ _ => rfl)
        | none =>
          rw [ho] at hb4
          rw [Option.none_or]
          by_cases hi2 : i < 2 ^ nb kb.2.codes
          · have hsk := a4.speak i hi2
            rw [hQ kb (by simp)] at hsk
            cases hk : speak m (sub m L kb.1) i with
            | none =>
              rw [hk] at hsk
              simp only [Nat.zero_add] at hsk
              exact hb4.trans hsk
            | some c =>
              rw [hk] at hsk
              refine CellOK.mono hsk (fun _ h => h) hb4 ?_
              intro j hj hj'
              refine b5 j (by omega) hj' ?_
              intro kb' h h'
              have := hreg' kb' h h'
              omega
          · have hk : speak m (sub m L kb.1) i = none := by
              unfold speak
              rw [← hQ kb (by simp), if_neg hi2]
            rw [hk]
            exact hb4.trans (a5 i (by omega) (.inr (by omega)))
      · intro j h1 h2 hnot
        rw [b5 j h1 (by omega) (fun kb' h => hnot kb' (by simp [h])), a5 j h2 (.inr (by omega))]
    · have hsp : sp kb.1 = false := by simpa using hsp
      have hr := hreg kb (by simp) hsp
      obtain ⟨T1, a1, a2, a3, a4, a5⟩ := hb kb (by simp) hsp T hr.2 (hfill kb (by simp) hsp) (by omega)
      obtain ⟨T2, b1, b2, b3, b4, b5⟩ := ih T1 (fun kb' h => hg kb' (by simp [h])) (fun kb' h => hQ kb' (by simp [h]))
        (fun kb' h => hN kb' (by simp [h])) (by omega) (fun kb' h => hb kb' (by simp [h]))
        (fun kb' h => hs kb' (by simp [h]))
        (fun kb' h h' => by have := hreg' kb' h h'; omega)
        (by
          intro kb' h h' i hi
          have h1 := hreg' kb' h h'
          have h2 := hdisj.1 kb' h hsp h'
          rw [a5 _ (by omega) (by omega)]
          exact hfill kb' (by simp [h]) h' i hi)
        hdisj.2 (by omega)
      refine ⟨T2, ?_, by omega, ?_, ?_, ?_⟩
      · simp only at a1
        rw [List.foldlM_cons, a1]; exact b1
      · intro kb' h h'
        rcases List.mem_cons.mp h with rfl | h
        · refine a4.mono (fun _ h => h) ?_
          intro j hF hj
          refine b5 j (by omega) hj ?_
          intro kb2 hkb2 h2'
          have h1 := hreg' kb2 hkb2 h2'
          have h2 := hdisj.1 kb2 hkb2 hsp h2'
          omega
        · refine (b3 kb' h h').mono ?_ (fun _ _ _ => rfl)
          intro j hj
          rcases hj with hj | hj
          · exact .inl hj
          · exact .inr (by omega)
      · intro i hi
        rw [List.filter_cons, if_neg (by simp [hsp])]
        have hb4 := b4 i hi
        cases ho : overs m L ((Q.map (·.1)).filter sp) i with
        | some c =>
          rw [ho] at hb4
          exact CellOK.mono hb4 (fun j hj => by omega) rfl (fun _ _ _ => rfl)
        | none =>
          rw [ho] at hb4
          exact hb4.trans (a5 i (by omega) (.inl (by omega)))
      · intro j h1 h2 hnot
        rw [b5 j h1 (by omega) (fun kb' h => hnot kb' (by simp [h])), a5 j h2 (hnot kb (by simp) hsp)]

/-- The first table of any book. Only the order in which the last loop of `Codebook::new` visits the groups
without a part of their own matters. -/
theorem new_cells {m : Mode} {ds : List (Desc S)} (hwf : WF m ds) (hfit : Fits m ds) (hne : used ds ≠ []) :
    ∃ (M1 : EscapeCodes) (sp : Nat → Bool), (M1.map (·.1)).Perm (keys m (codesFrom 0 ds)) ∧
      (∀ k ∈ keys m (codesFrom 0 ds), (sp k = true ↔ Spill m (codesFrom 0 ds) k)) ∧
      ∀ ord : Order, ord.Valid → ∃ T, new ord m ds = .ok (.ok ⟨T, (used ds).map (·.sym), nb (codesFrom 0 ds)⟩) ∧
        ∀ i, i < 2 ^ nb (codesFrom 0 ds) → CellOK m 25 T (fun j => 2 ^ nb (codesFrom 0 ds) ≤ j) i
          (topCell m (codesFrom 0 ds) (((ord [] 1 M1).map (·.1)).filter sp) i) := by
  have hCWF := codesFrom_CWF hwf hfit.2
  have hCB := codesFrom_CB hwf
  obtain ⟨M0, T1, M1, A, g2, f2, hts, hnew⟩ := new_start hwf hfit hne
  have hT0 : (List.replicate (2 ^ nb (codesFrom 0 ds)) FILL).length = 2 ^ nb (codesFrom 0 ds) := by simp
  have hg : ∀ k ∈ keys m (codesFrom 0 ds), 2 ^ nb (sub m (codesFrom 0 ds) k) ≤ tsize m 26 (sub m (codesFrom 0 ds) k) :=
    fun k _ => Nat.le_add_right _ _
  have hsum := sum_le_sum hg
  have hfill : ∀ i, i < 2 ^ nb (codesFrom 0 ds) →
      (List.replicate (2 ^ nb (codesFrom 0 ds)) FILL)[i]? = some FILL := by
    intro i hi
    rw [List.getElem?_replicate, if_pos hi]
  have hkeysM1 : (M1.map (·.1)).Perm (keys m (codesFrom 0 ds)) := by
    rw [f2.keys]
    exact g2.keys hCB
  have hspill : ∀ k ∈ keys m (codesFrom 0 ds), (decide (k ∉ A.map (·.1)) = true ↔ Spill m (codesFrom 0 ds) k) := by
    intro k hk
    rw [decide_eq_true_eq]
    constructor
    · intro hnot
      obtain ⟨_, _, c, k3, k4, k5⟩ := key_lt hCWF ((mem_keys hCB).mp hk)
      rcases f2.done c k3 k4 with h | h
      · rw [k5] at h; exact absurd h hnot
      · rwa [k5] at h
    · intro h hmem
      exact (f2.first k hmem).1 h
  refine ⟨M1, fun k => decide (k ∉ A.map (·.1)), hkeysM1, hspill, ?_⟩
  intro ord hord
  have hp1 := hord [] 1 M1
  have hAlen : (A.map fun a => 2 ^ nb (sub m (codesFrom 0 ds) a.1)).sum ≤
      ((keys m (codesFrom 0 ds)).map fun k => 2 ^ nb (sub m (codesFrom 0 ds) k)).sum := by
    have := sum_le_of_nodup (fun k => 2 ^ nb (sub m (codesFrom 0 ds) k)) f2.p.keys (l' := keys m (codesFrom 0 ds))
      fun k hk => (mem_keys hCB).mpr (g2.mem.mp (f2.sub k hk))
    simpa [List.map_map, Function.comp_def] using this
  have hcap := f2.p.cap
  have hb1 : ∀ kb ∈ ord [] 1 M1, IsBucket m (codesFrom 0 ds) kb := fun kb h => f2.bucket kb (hp1.mem_iff.mp h)
  have hk1 : ((ord [] 1 M1).map (·.1)).Perm (keys m (codesFrom 0 ds)) := (hp1.map _).trans hkeysM1
  have hs1 := sum_keys (fun l => 2 ^ nb l) hk1 hb1
  have hs2 := sum_keys (fun l => tsize m 26 l) hk1 hb1
  have hn1 : ((ord [] 1 M1).map (·.1)).Nodup :=
    (hp1.map (·.1)).nodup_iff.mpr (by rw [f2.keys]; exact g2.nodup)
  have hA : ∀ kb ∈ ord [] 1 M1, decide (kb.1 ∉ A.map (·.1)) = false → Codebook.ofs kb ∈ A := by
    intro kb h h'
    exact f2.ofs kb (hp1.mem_iff.mp h) (by simpa using h')
  have hpart : ∀ kb ∈ ord [] 1 M1, decide (kb.1 ∉ A.map (·.1)) = false → 2 ^ nb (codesFrom 0 ds) ≤ kb.2.offset ∧
      kb.2.offset + 2 ^ nb kb.2.codes ≤ T1.length ∧
      ∀ j, kb.2.offset ≤ j → j < kb.2.offset + 2 ^ nb kb.2.codes → T1[j]? = some FILL := by
    intro kb h h'
    have := f2.p.part (ofs kb) (hA kb h h')
    rw [hT0] at this
    rw [(hb1 kb h).2.1]
    exact this
  have hmain : ∀ kb ∈ ord [] 1 M1, nb (codesFrom 0 ds) = 10 := fun kb h => (key_lt hCWF (hb1 kb h).1).1
  have hsubw : ∀ k, ∀ c ∈ sub m (codesFrom 0 ds) k, 0 < c.bits ∧ c.bits ≤ maxLen m - 10 ∧ c.code < 2 ^ c.bits ∧ c.idx < 2 ^ 24 :=
    fun k => hCWF.sub (m := m) k
  have hml := maxLen_le m
  obtain ⟨T2, c1, c2, c3, c4, c5⟩ := overFold (m := m) (d := 25)
    (build := fun t kb => buildEscLut ord m 26 [kb.1] t kb.2) (codesFrom 0 ds)
    (fun k => decide (k ∉ A.map (·.1))) (2 ^ nb (codesFrom 0 ds)) (ord [] 1 M1) T1 (2 ^ 24) (tsize m 26)
    (fun kb h => by
      rw [(hb1 kb h).2.1]
      exact hg _ ((mem_keys hCB).mpr (hb1 kb h).1))
    (fun kb h => (hb1 kb h).2.1)
    (fun kb h _ => by
      rw [hmain kb h]
      exact Nat.pow_le_pow_right (by omega) (nb_le _))
    (by have := f2.p.len; omega)
    (by
      intro kb hkb _ T h1 h2 h3
      obtain ⟨i1, i2, i3⟩ := hb1 kb hkb
      have hw := hsubw kb.1
      refine buildEscLut_spec hord 25 26 (by omega) _ kb.2 T (by rw [i2, i3])
        ?_ ?_ (by rw [i2]; exact i1) h1 h2 h3
      · rw [i2]
        intro c hc
        have := hw c hc
        exact ⟨this.1, by omega, this.2.2⟩
      · rw [i2]
        intro c hc
        have := hw c hc
        exact ⟨this.1, by omega, this.2.2⟩)
    (by
      intro kb hkb hsp T h1 h3
      obtain ⟨i1, i2, i3⟩ := hb1 kb hkb
      have hw := hsubw kb.1
      have h0 : kb.2.offset = 0 := f2.zero kb (hp1.mem_iff.mp hkb) (by simpa using hsp)
      have := buildEscLut_over hord 25 25 (by omega) [kb.1] kb.2 T (by rw [i2, i3])
        (by
          rw [i2]
          intro c hc
          have := hw c hc
          exact ⟨this.1, by omega, this.2.2⟩)
        (by
          rw [i2]
          intro c hc
          have := hw c hc
          exact ⟨this.1, by omega, this.2.2⟩)
        (by rw [h0]; omega) h3
      rwa [h0] at this)
    (fun kb h h' => ⟨(hpart kb h h').1, (hpart kb h h').2.1⟩)
    (fun kb h h' i hi => (hpart kb h h').2.2 _ (by omega) (by omega))
    (by
      have hn' : (ord [] 1 M1).Pairwise fun a b => a.1 ≠ b.1 := by
        have := hn1; unfold List.Nodup at this; rwa [List.pairwise_map] at this
      refine List.Pairwise.imp_of_mem ?_ hn'
      intro a b ha hb hab h1 h2
      rw [(hb1 a ha).2.1, (hb1 b hb).2.1]
      exact parts_disj A f2.p.disj (ofs a) (hA a ha h1) (ofs b) (hA b hb h2) hab)
    (by omega)
  refine ⟨T2, by rw [hnew ord, c1]; rfl, ?_⟩
  intro i hi
  have h4 := c4 i hi
  unfold topCell
  cases ho : overs m (codesFrom 0 ds) (((ord [] 1 M1).map (·.1)).filter fun k => decide (k ∉ A.map (·.1))) i with
  | some c =>
    rw [ho] at h4
    refine CellOK.mono h4 ?_ rfl (fun _ _ _ => rfl)
    intro j hj
    have := f2.p.len
    omega
  | none =>
    rw [ho] at h4
    simp only at h4
    rw [Option.getD_none]
    unfold firstCell
    cases hh : hitOf m (nb (codesFrom 0 ds)) i (shorts (codesFrom 0 ds)) with
    | some c =>
      have := f2.p.leaf i c hi hh (.inl rfl)
      rw [Nat.zero_add] at this
      exact h4.trans this
    | none =>
      simp only
      by_cases hsub : sub m (codesFrom 0 ds) i = []
      · rw [if_pos hsub]
        have := f2.p.fill i hi (by
          intro hmem
          obtain ⟨ko, q1, q2⟩ := List.mem_map.mp hmem
          exact (f2.p.esc ko q1).1 (by rw [q2]; exact hsub)) hh
        rw [Nat.zero_add, hfill i hi] at this
        exact h4.trans this
      · rw [if_neg hsub]
        obtain ⟨k1, _⟩ := key_lt hCWF hsub
        have hik : i ∈ keys m (codesFrom 0 ds) := (mem_keys hCB).mpr hsub
        obtain ⟨kb, q1, q2⟩ := List.mem_map.mp (hk1.mem_iff.mpr hik)
        have hiA : i ∈ A.map (·.1) := by
          apply Classical.byContradiction
          intro hnot
          obtain ⟨pre, c, post, e1, e2, e3, e4, s, e5, e6, e7⟩ := (hspill i hik).mp (by simpa using hnot)
          refine hitOf_none.mp hh s (List.mem_filter.mpr ⟨by rw [e1]; simp [e5], by simpa using e6⟩) ?_
          rw [k1]; exact e7
        have hdec : decide (kb.1 ∉ A.map (·.1)) = false := by rw [q2]; simpa using hiA
        have hofs := hA kb q1 hdec
        obtain ⟨e1, e2, e3⟩ := f2.p.esc _ hofs
        simp only [ofs, Nat.zero_add, q2] at e1 e2 e3
        refine ⟨kb.2.offset, e2, h4.trans (e3 fun _ => hh), ?_⟩
        have hn := c3 kb q1 hdec
        rw [(hb1 kb q1).2.1, q2] at hn
        refine hn.mono ?_ (fun _ _ _ => rfl)
        intro j hj
        have := (hpart kb q1 hdec).1
        have := f2.p.len
        omega

end Verif.Codebook
