import Verif.Stream.Model

/-! # C56, C57: the table of streams -/

namespace Verif.Stream
open Verif Verif.Frame

theorem addAll_streams (g : GlobalInfo) (sts : List Stream) :
    (g.addAll sts).1 = (List.range sts.length).map (g.streams.length + ·) ∧
    (g.addAll sts).2.duration = g.duration ∧ (g.addAll sts).2.timebase = g.timebase ∧
    (g.addAll sts).2.streams.length = g.streams.length + sts.length ∧
    (∀ i < g.streams.length, (g.addAll sts).2.streams[i]? = g.streams[i]?) ∧
    (∀ k st, sts[k]? = some st → (g.addAll sts).2.streams[g.streams.length + k]? =
      some { st with index := g.streams.length + k, id := if st.id < 0 then asIsize st.index else st.id }) := by
  induction sts generalizing g with
  | nil => simp [GlobalInfo.addAll]
  | cons st sts ih =>
    obtain ⟨h1, h2, h3, h4, h5, h6⟩ := ih (g.addStream st).2
    have hl : (g.addStream st).2.streams.length = g.streams.length + 1 := by simp [GlobalInfo.addStream]
    simp only [GlobalInfo.addAll]
    refine ⟨?_, ?_, ?_, ?_, ?_, ?_⟩
    · rw [h1, hl, List.length_cons, List.range_succ_eq_map, List.map_cons, List.map_map]
      simp only [GlobalInfo.addStream, Nat.add_zero, List.cons.injEq, true_and]
      apply List.map_congr_left
      intro i _
      simp only [Function.comp_apply]; omega
    · rw [h2]; rfl
    · rw [h3]; rfl
    · rw [h4, hl, List.length_cons]; omega
    · intro i hi
      rw [h5 i (by omega)]
      simp only [GlobalInfo.addStream]
      exact List.getElem?_append_left hi
    · intro k s hk
      cases k with
      | zero =>
        simp only [List.getElem?_cons_zero, Option.some.injEq] at hk
        subst hk
        rw [Nat.add_zero, h5 _ (by omega)]
        simp only [GlobalInfo.addStream]
        rw [List.getElem?_append_right (Nat.le_refl _), Nat.sub_self, List.getElem?_cons_zero]
        split <;> rfl
      | succ k =>
        have := h6 k s (by simpa using hk)
        rw [hl] at this
        rw [show g.streams.length + (k + 1) = g.streams.length + 1 + k by omega]
        exact this

/-- **C56.** Adding any sequence of streams to any table: every call returns the position of its stream, the stream is
found there with that index, a non-negative id, and all its other fields as given; earlier streams and the other fields
of the table are unchanged. -/
theorem c56_table (g : GlobalInfo) (sts : List Stream) :
    let (is, g') := g.addAll sts
    g'.duration = g.duration ∧ g'.timebase = g.timebase ∧
    g'.streams.length = g.streams.length + sts.length ∧ is.length = sts.length ∧
    (∀ i < g.streams.length, g'.streams[i]? = g.streams[i]?) ∧
    (∀ k st, sts[k]? = some st → ∃ i st', is[k]? = some i ∧ g'.streams[i]? = some st' ∧
      i = g.streams.length + k ∧ st'.index = i ∧ (0 ≤ st.id → st'.id = st.id) ∧
      st' = { st with index := i, id := st'.id }) := by
  obtain ⟨h1, h2, h3, h4, h5, h6⟩ := addAll_streams g sts
  refine ⟨h2, h3, h4, by rw [h1]; simp, h5, fun k st hk => ⟨g.streams.length + k, _, ?_, h6 k st hk, rfl, rfl, ?_, ?_⟩⟩
  · have : k < sts.length := (List.getElem?_eq_some_iff.1 hk).1
    rw [h1]; simp [this]
  · intro h0; simp only; rw [if_neg (by omega)]
  · rfl

/-- **C56.** A table filled by `add_stream` has every stream at its index. -/
theorem c56_indices (d : Option Nat) (tb : Option Rational64) (sts : List Stream) (i : Nat) (st : Stream)
    (h : (GlobalInfo.addAll ⟨d, tb, []⟩ sts).2.streams[i]? = some st) : st.index = i := by
  obtain ⟨h1, h2, h3, h4, h5, h6⟩ := addAll_streams ⟨d, tb, []⟩ sts
  have hi : i < sts.length := by
    have := (List.getElem?_eq_some_iff.1 h).1
    rw [h4] at this; simpa using this
  have := h6 i sts[i] (by simp [hi])
  simp only [List.length_nil, Nat.zero_add] at this
  rw [h] at this
  rw [Option.some.inj this]

def sampleParams : CodecParams := ⟨none, some "opus", some [1, 2], 0, 0, 0⟩
def sampleStream : Stream := .fromParams sampleParams ⟨1, 48000⟩

example : (GlobalInfo.addAll ⟨none, none, [{ sampleStream with id := 9 }]⟩ [sampleStream, { sampleStream with id := 7 }]).1 =
      [1, 2] ∧
    (GlobalInfo.addAll ⟨none, none, [{ sampleStream with id := 9 }]⟩ [sampleStream, { sampleStream with id := 7 }]).2.streams.map
      (fun s => (s.id, s.index)) = [(9, 0), (0, 1), (7, 2)] := by decide

/-- **C57**, partial: in full, streams added with default ids get distinct ids. The ids given are: the stream's own if
not negative, else the index it carried *before* being added; so they are distinct only if the caller has set distinct
indices beforehand. -/
theorem c57_ids_partial (d : Option Nat) (tb : Option Rational64) (sts : List Stream) (hi : ∀ st ∈ sts, st.index < 2 ^ 63)
    (hd : (sts.map fun st => if st.id < 0 then (st.index : Int) else st.id).Pairwise (· ≠ ·)) :
    ((GlobalInfo.addAll ⟨d, tb, []⟩ sts).2.streams.map (·.id)).Pairwise (· ≠ ·) := by
  obtain ⟨h1, h2, h3, h4, h5, h6⟩ := addAll_streams ⟨d, tb, []⟩ sts
  suffices h : (GlobalInfo.addAll ⟨d, tb, []⟩ sts).2.streams.map (·.id) =
      sts.map fun st => if st.id < 0 then (st.index : Int) else st.id by rw [h]; exact hd
  apply List.ext_getElem?
  intro i
  rw [List.getElem?_map, List.getElem?_map]
  cases hs : sts[i]? with
  | none =>
    rw [List.getElem?_eq_none (by
      rw [h4]; have := List.getElem?_eq_none_iff.1 hs; simpa using this)]
    rfl
  | some st =>
    have := h6 i st hs
    simp only [List.length_nil, Nat.zero_add] at this
    rw [this]
    have hlt := hi st (List.mem_of_getElem? hs)
    simp only [Option.map_some, asIsize, if_pos hlt]

/-- **C57**, what is given instead: the stream's own id if not negative, else the index it carried before being added,
as a 64-bit two's complement number. -/
theorem c57_exact_partial (g : GlobalInfo) (sts : List Stream) (k : Nat) (st : Stream) (hk : sts[k]? = some st)
    (hi : st.index < 2 ^ 64) :
    ∃ st', (g.addAll sts).2.streams[g.streams.length + k]? = some st' ∧
      st'.id = if st.id < 0 then (BitVec.ofNat 64 st.index).toInt else st.id := by
  obtain ⟨_, _, _, _, _, h6⟩ := addAll_streams g sts
  refine ⟨_, h6 k st hk, ?_⟩
  have : asIsize st.index = (BitVec.ofNat 64 st.index).toInt := by
    rw [BitVec.toInt_eq_toNat_cond, BitVec.toNat_ofNat, Nat.mod_eq_of_lt hi, asIsize]
    split <;> split <;> omega
  rw [this]

example : [sampleStream, { sampleStream with index := 2 ^ 64 - 1 }][1]? = some { sampleStream with index := 2 ^ 64 - 1 } ∧
    (BitVec.ofNat 64 (2 ^ 64 - 1)).toInt = -1 := by decide

/-- **C57** fails: two streams created with `from_params` get the same id. -/
theorem c57_fails : ∃ st1 st2 : Stream, st1 = .fromParams sampleParams ⟨1, 48000⟩ ∧ st2 = .fromParams sampleParams ⟨1, 25⟩ ∧
    ∃ a b, (GlobalInfo.addAll ⟨none, none, []⟩ [st1, st2]).2.streams = [a, b] ∧ a.id = b.id :=
  ⟨_, _, rfl, rfl, _, _, rfl, by decide⟩

example : ([sampleStream, { sampleStream with id := 7 }].map fun st => if st.id < 0 then (st.index : Int) else st.id).Pairwise
    (· ≠ ·) := by decide

end Verif.Stream
