import Verif.Demux.Model

/-!
# Property C37
-/

namespace Verif.Demux
open Verif

theorem probeLoop_spec {T : Type} (data : List U8) (ds : List (Descriptor T)) (m : BitVec 8) (cand : Option (Descriptor T)) :
    (probeLoop data m cand ds = (m, cand) ∧ ∀ d ∈ ds, d.probe data ≤ m) ∨
    ∃ i d, ds[i]? = some d ∧ probeLoop data m cand ds = (d.probe data, some d) ∧ m < d.probe data ∧
      (∀ e ∈ ds, e.probe data ≤ d.probe data) ∧
      ∀ (j : Nat) e, j < i → ds[j]? = some e → e.probe data < d.probe data := by
  induction ds generalizing m cand with
  | nil => left; exact ⟨rfl, by simp⟩
  | cons x xs ih =>
    simp only [probeLoop]
    by_cases h : x.probe data > m
    · rw [if_pos h]
      right
      rcases ih (x.probe data) (some x) with ⟨h1, h2⟩ | ⟨i, d, h1, h2, h3, h4, h5⟩
      · refine ⟨0, x, rfl, h1, h, ?_, by intro j e hj; omega⟩
        intro e he
        rcases List.mem_cons.1 he with rfl | he
        · exact BitVec.le_refl _
        · exact h2 e he
      · refine ⟨i + 1, d, by simpa using h1, h2, ?_, ?_, ?_⟩
        · have := BitVec.lt_def.1 h; have := BitVec.lt_def.1 h3; exact BitVec.lt_def.2 (by omega)
        · intro e he
          rcases List.mem_cons.1 he with rfl | he
          · exact BitVec.le_of_lt h3
          · exact h4 e he
        · intro j e hj hje
          cases j with
          | zero => simp at hje; subst hje; exact h3
          | succ j => exact h5 j e (by omega) (by simpa using hje)
    · rw [if_neg h]
      have hle : x.probe data ≤ m := BitVec.le_def.2 (by have := mt BitVec.lt_def.2 h; omega)
      rcases ih m cand with ⟨h1, h2⟩ | ⟨i, d, h1, h2, h3, h4, h5⟩
      · left
        refine ⟨h1, ?_⟩
        intro e he
        rcases List.mem_cons.1 he with rfl | he
        · exact hle
        · exact h2 e he
      · right
        have hlt : x.probe data < d.probe data := by
          have := BitVec.lt_def.1 h3; have := BitVec.le_def.1 hle; exact BitVec.lt_def.2 (by omega)
        refine ⟨i + 1, d, by simpa using h1, h2, h3, ?_, ?_⟩
        · intro e he
          rcases List.mem_cons.1 he with rfl | he
          · exact BitVec.le_of_lt hlt
          · exact h4 e he
        · intro j e hj hje
          cases j with
          | zero => simp at hje; subst hje; exact hlt
          | succ j => exact h5 j e (by omega) (by simpa using hje)

/-- C37. `probe` returns a descriptor with the highest score, the first of those that have it, and its score
exceeds 50; it returns none exactly if no score exceeds 50. -/
theorem c37_probe {T : Type} (ds : List (Descriptor T)) (data : List U8) :
    (∀ d, probe ds data = some d → 50 < (d.probe data).toNat ∧ (∀ e ∈ ds, (e.probe data).toNat ≤ (d.probe data).toNat) ∧
      ∃ i : Nat, ds[i]? = some d ∧ ∀ (j : Nat) e, j < i → ds[j]? = some e → (e.probe data).toNat < (d.probe data).toNat) ∧
    (probe ds data = none ↔ ∀ d ∈ ds, (d.probe data).toNat ≤ 50) := by
  have h50 : PROBE_SCORE_EXTENSION.toNat = 50 := rfl
  unfold probe
  rcases probeLoop_spec data ds 0 none with ⟨h1, h2⟩ | ⟨i, d, h1, h2, h3, h4, h5⟩
  · rw [h1]
    refine ⟨fun d h => by simp at h, ?_⟩
    simp only [ite_self, true_iff]
    intro d hd
    have := BitVec.le_def.1 (h2 d hd)
    simp at this
    simp [this]
  · rw [h2]
    simp only
    by_cases hs : d.probe data > PROBE_SCORE_EXTENSION
    · have hs' := BitVec.lt_def.1 hs
      rw [h50] at hs'
      rw [if_pos hs]
      refine ⟨?_, ?_⟩
      · intro d' hd'
        cases hd'
        exact ⟨hs', fun e he => BitVec.le_def.1 (h4 e he), i, h1, fun j e hj he => BitVec.lt_def.1 (h5 j e hj he)⟩
      · refine ⟨fun h => (nomatch h), fun h => ?_⟩
        have := h d (List.mem_of_getElem? h1)
        omega
    · have hs' := mt BitVec.lt_def.2 hs
      rw [h50] at hs'
      rw [if_neg hs]
      refine ⟨fun d' h => (nomatch h), ⟨fun _ e he => ?_, fun _ => rfl⟩⟩
      have := BitVec.le_def.1 (h4 e he)
      omega

/-- Scores 20, 80, 60, 80 for the names a, b, c, d: b is chosen. -/
def sampleDescriptors : List (Descriptor Unit) :=
  [("a", 20), ("b", 80), ("c", 60), ("d", 80)].map fun (n, s) => ⟨(), ⟨n, n, "", [], []⟩, fun _ => s⟩

example : (probe sampleDescriptors []).map (·.describe.name) = some "b" := by decide
example : (probe (sampleDescriptors.take 1) []).map (·.describe.name) = none := by decide

end Verif.Demux
