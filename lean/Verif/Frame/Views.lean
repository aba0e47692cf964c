import Verif.Frame.Props

/-!
# C85: writing through views
-/

namespace Verif.Frame
open Verif Verif.Audio

/-- frame.rs:336-340 and 400-405, followed by storing `e` into element `j` of the slice (which panics behind its
end), for a plane stored at address `addr` and elements of `sz` bytes; `e` holds the bytes of the element. -/
def storeElem (eo : Bool) (b : DefaultFrameBuffer) (addr sz i j : Nat) (e : List U8) : Rust (Except FrameError DefaultFrameBuffer) :=
  match asSlice eo b addr sz i, b.planes[i]? with
  | .ok es, some p =>
    if j < es.length then .ok (.ok { b with planes := b.planes.set i { p with buf := (es.set j e).flatten } })
    else .error .index
  | .error err, _ => .ok (.error err)
  | _, none => .ok (.error .InvalidIndex)

/-- A store into element `j` of plane `i`. -/
structure Store where
  i : Nat
  sz : Nat
  j : Nat
  e : List U8

/-- Stores one after the other; `base` is the address of the allocation. -/
def storeAll (eo : Bool) (base : Nat) : DefaultFrameBuffer → List Store → Rust (Except FrameError DefaultFrameBuffer)
  | b, [] => .ok (.ok b)
  | b, s :: ss => do
    match ← storeElem eo b (addrOf b base s.i) s.sz s.i s.j s.e with
    | .error e => .ok (.error e)
    | .ok b => storeAll eo base b ss

/-! ### specification: an array of bytes for every plane -/

/-- Byte `x` of plane `i` after the stores, given what it was before. -/
def byteAfter (i x : Nat) : U8 → List Store → U8
  | old, [] => old
  | old, s :: ss =>
    byteAfter i x (if s.i = i ∧ s.j * s.sz ≤ x ∧ x < s.j * s.sz + s.sz then s.e.getD (x - s.j * s.sz) 0 else old) ss

/-- Byte `x` of plane `i` as `as_slice` shows it. -/
def byteAt (b : DefaultFrameBuffer) (i x : Nat) : Option U8 := do
  let l ← (b.asSliceInner i).toOption
  l[x]?

/-! ### lemmas -/

theorem chunks_set {n : Nat} (hn : 0 < n) (e : List U8) (fuel : Nat) (l : List U8) (hl : l.length ≤ fuel) (j : Nat)
    (hj : j * n < l.length) :
    ((chunksAux n fuel l).set j e).flatten = l.take (j * n) ++ e ++ l.drop (j * n + n) ∧
      j < (chunksAux n fuel l).length := by
  induction fuel generalizing l j with
  | zero => omega
  | succ fuel ih =>
    have hne : l ≠ [] := by intro h; subst h; simp at hj
    rw [chunksAux_cons n fuel l hne]
    have hdl : (l.drop n).length ≤ fuel := by
      have := List.length_pos_iff.2 hne
      rw [List.length_drop]; omega
    cases j with
    | zero =>
      refine ⟨?_, by simp⟩
      rw [List.set_cons_zero, List.flatten_cons, chunksAux_flatten hn _ _ hdl]
      simp
    | succ j =>
      have hjn : (j + 1) * n = j * n + n := by rw [Nat.add_mul, Nat.one_mul]
      obtain ⟨h1, h2⟩ := ih (l.drop n) hdl j (by rw [List.length_drop]; omega)
      refine ⟨?_, by simpa using h2⟩
      rw [List.set_cons_succ, List.flatten_cons, h1, List.drop_drop, ← List.append_assoc, ← List.append_assoc, hjn]
      rw [show j * n + n + n = n + (j * n + n) by omega]
      congr 2
      rw [show j * n + n = n + j * n by omega, List.take_add]

theorem chunks_short {n : Nat} (hn : 0 < n) (fuel : Nat) (l : List U8) (hl : l.length ≤ fuel) (j : Nat)
    (hj : l.length ≤ j * n) : (chunksAux n fuel l).length ≤ j := by
  induction fuel generalizing l j with
  | zero => simp at hl; subst hl; simp [chunksAux]
  | succ fuel ih =>
    by_cases hne : l = []
    · subst hne; rw [chunksAux_nil]; simp
    · have hp := List.length_pos_iff.2 hne
      rw [chunksAux_cons n fuel l hne, List.length_cons]
      cases j with
      | zero => omega
      | succ j =>
        have hjn : (j + 1) * n = j * n + n := by rw [Nat.add_mul, Nat.one_mul]
        have := ih (l.drop n) (by rw [List.length_drop]; omega) j (by rw [List.length_drop]; omega)
        omega

theorem splice_getElem? (l e : List U8) (a : Nat) (ha : a + e.length ≤ l.length) (x : Nat) :
    (l.take a ++ e ++ l.drop (a + e.length))[x]? =
      (l[x]?).map fun old => if a ≤ x ∧ x < a + e.length then e.getD (x - a) 0 else old := by
  have hta : (l.take a).length = a := by rw [List.length_take]; omega
  by_cases h1 : x < a
  · rw [List.append_assoc, List.getElem?_append_left (by omega), List.getElem?_take, if_pos h1,
      List.getElem?_eq_getElem (by omega)]
    rw [Option.map_some, if_neg (by omega)]
  · by_cases h2 : x < a + e.length
    · rw [List.append_assoc, List.getElem?_append_right (by omega), hta, List.getElem?_append_left (by omega),
        List.getElem?_eq_getElem (by omega), List.getElem?_eq_getElem (show x < l.length by omega)]
      rw [Option.map_some, if_pos (by omega)]
      rw [List.getD_eq_getElem?_getD, List.getElem?_eq_getElem (by omega)]
      rfl
    · rw [List.getElem?_append_right (by rw [List.length_append]; omega), List.length_append, hta, List.getElem?_drop]
      rw [show a + e.length + (x - (a + e.length)) = x by omega]
      cases hx : l[x]? with
      | none => rfl
      | some v => rw [Option.map_some, if_neg (by omega)]

/-- Planes have lengths a view of any supported type covers. -/
def Whole (b : DefaultFrameBuffer) : Prop := ∀ p ∈ b.planes, 32 ∣ p.buf.length

theorem addr_aligned {b : DefaultFrameBuffer} (hw : Whole b) (base sz i : Nat) (hsz : sz = 1 ∨ sz = 2 ∨ sz = 4)
    (ha : base % sz = 0) : addrOf b base i % sz = 0 := by
  have h32 : ∀ p ∈ b.planes.take i, 32 ∣ p.buf.length := fun p hp => hw p (List.mem_of_mem_take hp)
  have hs : 32 ∣ ((b.planes.take i).map (·.buf.length)).sum := by
    generalize b.planes.take i = ps at h32
    induction ps with
    | nil => simp
    | cons p ps ih =>
      simp only [List.map_cons, List.sum_cons]
      exact Nat.dvd_add (h32 p (by simp)) (ih fun q hq => h32 q (by simp [hq]))
  have hd : sz ∣ 32 := by rcases hsz with rfl | rfl | rfl <;> decide
  exact Nat.mod_eq_zero_of_dvd (Nat.dvd_add (Nat.dvd_of_mod_eq_zero ha) (Nat.dvd_trans hd hs))

theorem storeElem_spec (eo : Bool) {b : DefaultFrameBuffer} (hw : Whole b) (addr : Nat) (s : Store) (p : Plane)
    (hp : b.planes[s.i]? = some p) (hsz : s.sz = 1 ∨ s.sz = 2 ∨ s.sz = 4) (ha : addr % s.sz = 0)
    (he : s.e.length = s.sz) (hj : s.j * s.sz + s.sz ≤ p.buf.length) :
    ∃ b', storeElem eo b addr s.sz s.i s.j s.e = .ok (.ok b') ∧ Whole b' ∧ b'.count = b.count ∧
      (∀ i, b'.linesize i = b.linesize i) ∧
      (∀ i : Nat, (b'.planes[i]?).map (fun q : Plane => q.buf.length) =
        (b.planes[i]?).map (fun q : Plane => q.buf.length)) ∧
      ∀ i x, byteAt b' i x = (byteAt b i x).map (byteAfter i x · [s]) := by
  have hpos : 0 < s.sz := by omega
  have hd : s.sz ∣ p.buf.length := by
    refine Nat.dvd_trans ?_ (hw p (List.mem_of_getElem? hp))
    rcases hsz with h | h | h <;> rw [h] <;> decide
  obtain ⟨h1, h2⟩ := chunks_set hpos s.e p.buf.length p.buf (Nat.le_refl _) s.j (by omega)
  have hi : s.i < b.planes.length := by
    rw [List.getElem?_eq_some_iff] at hp; exact hp.1
  have hlen : ((p.buf.take (s.j * s.sz) ++ s.e ++ p.buf.drop (s.j * s.sz + s.sz))).length = p.buf.length := by
    simp only [List.length_append, List.length_take, List.length_drop]; omega
  refine ⟨{ b with planes := b.planes.set s.i { p with buf := ((chunksAux s.sz p.buf.length p.buf).set s.j s.e).flatten } },
    ?_, ?_, ?_, ?_, ?_, ?_⟩
  · simp only [storeElem, asSlice, DefaultFrameBuffer.asSliceInner, hp, asSliceOf, ha,
      Nat.mod_eq_zero_of_dvd hd, true_or, and_self, if_true, h2]
  · intro q hq
    rcases List.mem_or_eq_of_mem_set hq with hq | hq
    · exact hw q hq
    · subst hq
      simp only [h1, hlen]
      exact hw p (List.mem_of_getElem? hp)
  · simp [DefaultFrameBuffer.count]
  · intro i
    simp only [DefaultFrameBuffer.linesize, List.getElem?_set]
    by_cases h : s.i = i
    · subst h; rw [hp]; simp [hi]
    · simp [h]
  · intro i
    simp only [List.getElem?_set]
    by_cases h : s.i = i
    · subst h; rw [hp]; simp only [hi, if_true, Option.map_some, h1, hlen]
    · simp [h]
  · intro i x
    simp only [byteAt, DefaultFrameBuffer.asSliceInner, List.getElem?_set, byteAfter]
    by_cases h : s.i = i
    · subst h
      simp only [if_pos hi, if_true, hp, Except.toOption, Option.bind_eq_bind, Option.bind_some, true_and]
      rw [h1]
      have := splice_getElem? p.buf s.e (s.j * s.sz) (by omega) x
      rw [he] at this
      exact this
    · simp only [h, if_false, false_and]
      simp

theorem storeAll_spec (eo : Bool) (base : Nat) (ss : List Store) {b : DefaultFrameBuffer} (hw : Whole b)
    (hss : ∀ s ∈ ss, (s.sz = 1 ∨ s.sz = 2 ∨ s.sz = 4) ∧ base % s.sz = 0 ∧ s.e.length = s.sz ∧
      ∃ p, b.planes[s.i]? = some p ∧ s.j * s.sz + s.sz ≤ p.buf.length) :
    ∃ b', storeAll eo base b ss = .ok (.ok b') ∧ b'.count = b.count ∧ (∀ i, b'.linesize i = b.linesize i) ∧
      ∀ i x, byteAt b' i x = (byteAt b i x).map (byteAfter i x · ss) := by
  induction ss generalizing b with
  | nil => exact ⟨b, rfl, rfl, fun _ => rfl, fun i x => by simp [byteAfter]⟩
  | cons s ss ih =>
    obtain ⟨g1, g2, g3, p, g4, g5⟩ := hss s (by simp)
    obtain ⟨b1, a1, a2, a3, a4, a5, a6⟩ := storeElem_spec eo hw (addrOf b base s.i) s p g4 g1
      (addr_aligned hw base s.sz s.i g1 g2) g3 g5
    obtain ⟨b2, c1, c2, c3, c4⟩ := ih a2 (by
      intro s' hs'
      obtain ⟨k1, k2, k3, q, k4, k5⟩ := hss s' (by simp [hs'])
      have := a5 s'.i
      rw [k4] at this
      cases hq : b1.planes[s'.i]? with
      | none => rw [hq] at this; cases this
      | some q' =>
        rw [hq] at this
        simp only [Option.map_some, Option.some.injEq] at this
        exact ⟨k1, k2, k3, q', rfl, by omega⟩)
    refine ⟨b2, by simp only [storeAll, a1, ok_bind, c1], c2.trans a3, fun i => (c3 i).trans (a4 i), fun i x => ?_⟩
    rw [c4, a6, Option.map_map]
    rfl

/-! ### C85 -/

/-- **C85** On a new frame buffer whose allocation is aligned, any number of stores through mutable views of
elements of 1, 2 or 4 bytes, inside their planes, succeed; every plane is then what an array of bytes becomes by these
stores: each byte is the one stored last to it, all others are unchanged, as are the number of planes and
their strides. -/
theorem c85_stores (k : MediaKind) (b : DefaultFrameBuffer) (hb : DefaultFrameBuffer.new k = .ok b) (eo : Bool)
    (base : Nat) (ss : List Store) (hss : ∀ s ∈ ss, (s.sz = 1 ∨ s.sz = 2 ∨ s.sz = 4) ∧ base % s.sz = 0 ∧ s.e.length = s.sz ∧
      ∃ p, b.planes[s.i]? = some p ∧ s.j * s.sz + s.sz ≤ p.buf.length) :
    ∃ b', storeAll eo base b ss = .ok (.ok b') ∧ b'.count = b.count ∧ (∀ i, b'.linesize i = b.linesize i) ∧
      ∀ i x, byteAt b' i x = (byteAt b i x).map (byteAfter i x · ss) :=
  storeAll_spec eo base ss (planes_dvd hb) hss

/-- No byte but zero, in the planes and in what is left to be split. -/
def Blank (b : DefaultFrameBuffer) : Prop := (∀ v ∈ b.buf, v = 0) ∧ ∀ p ∈ b.planes, ∀ v ∈ p.buf, v = 0

theorem pushPlane_blank {b b' : DefaultFrameBuffer} {n l : Nat} (hb : Blank b) (h : b.pushPlane n l = .ok b') : Blank b' := by
  simp only [DefaultFrameBuffer.pushPlane, DefaultFrameBuffer.splitTo] at h
  split at h
  · cases h
    refine ⟨fun v hv => hb.1 v (List.mem_of_mem_drop hv), fun p hp v hv => ?_⟩
    rcases List.mem_append.1 hp with hp | hp
    · exact hb.2 p hp v hv
    · obtain rfl := List.mem_singleton.1 hp
      exact hb.1 v (List.mem_of_mem_take hv)
  · cases h

theorem new_blank {k : MediaKind} {b : DefaultFrameBuffer} (h : DefaultFrameBuffer.new k = .ok b) : Blank b := by
  have hz : ∀ n, Blank ⟨List.replicate n 0, []⟩ := fun n => ⟨fun v hv => List.eq_of_mem_replicate hv, fun p hp => nomatch hp⟩
  have hv : ∀ w h cs b b', Blank b → DefaultFrameBuffer.videoPlanes w h b cs = .ok b' → Blank b' := by
    intro w h cs
    induction cs with
    | nil => intro b b' hb h; cases h; exact hb
    | cons c cs ih =>
      intro b b' hb hp
      cases c with
      | none => exact ih b b' hb hp
      | some c =>
        simp only [DefaultFrameBuffer.videoPlanes] at hp
        cases h1 : c.getDataSize w h ALIGNMENT with
        | error e => rw [h1] at hp; cases hp
        | ok z =>
          cases h2 : c.getLinesize w ALIGNMENT with
          | error e => rw [h1, h2] at hp; cases hp
          | ok l =>
            rw [h1, h2] at hp
            simp only [ok_bind] at hp
            cases h3 : b.pushPlane z l with
            | error e => rw [h3] at hp; cases hp
            | ok b1 =>
              rw [h3] at hp
              exact ih b1 b' (pushPlane_blank hb h3) hp
  have ha : ∀ a n b b', Blank b → DefaultFrameBuffer.audioPlanes a b n = .ok b' → Blank b' := by
    intro a n
    induction n with
    | zero => intro b b' hb h; cases h; exact hb
    | succ n ih =>
      intro b b' hb hp
      simp only [DefaultFrameBuffer.audioPlanes] at hp
      cases h1 : a.format.getAudioSize a.samples ALIGNMENT with
      | error e => rw [h1] at hp; cases hp
      | ok z =>
        rw [h1] at hp
        simp only [ok_bind] at hp
        cases h3 : b.pushPlane z z with
        | error e => rw [h3] at hp; cases hp
        | ok b1 =>
          rw [h3] at hp
          exact ih b1 b' (pushPlane_blank hb h3) hp
  cases k with
  | Video v =>
    simp only [DefaultFrameBuffer.new] at h
    cases h1 : v.size ALIGNMENT with
    | error e => rw [h1] at h; cases h
    | ok z => rw [h1] at h; exact hv _ _ _ _ _ (hz z) h
  | Audio a =>
    simp only [DefaultFrameBuffer.new] at h
    cases h1 : a.size ALIGNMENT with
    | error e => rw [h1] at h; cases h
    | ok z =>
      rw [h1] at h
      simp only [ok_bind] at h
      split at h
      · exact ha _ _ _ _ (hz z) h
      · exact pushPlane_blank (hz z) h

/-- **C85** All bytes of a new frame are zero. -/
theorem c85_blank (k : MediaKind) (b : DefaultFrameBuffer) (hb : DefaultFrameBuffer.new k = .ok b) (i x : Nat) (v : U8)
    (hv : byteAt b i x = some v) : v = 0 := by
  simp only [byteAt, DefaultFrameBuffer.asSliceInner] at hv
  cases hp : b.planes[i]? with
  | none => simp [hp] at hv; cases hv
  | some p =>
    simp only [hp] at hv
    exact (new_blank hb).2 p (List.mem_of_getElem? hp) v (List.mem_of_getElem? hv)

example : ∃ b, DefaultFrameBuffer.new (.Audio (.new 3 48000 ⟨[.C]⟩ formats.F32 none)) = .ok b ∧ byteAt b 0 31 = some 0 ∧
    byteAt b 0 32 = none :=
  ⟨⟨[], [⟨List.replicate 32 0, 32⟩]⟩, by decide +kernel, by decide +kernel, by decide +kernel⟩

/-- **C85** A store to a plane that does not exist, or through a misaligned view of a plane that is not empty, is refused with the error
documented; one behind the end of the plane panics. -/
theorem c85_refused (k : MediaKind) (b : DefaultFrameBuffer) (hb : DefaultFrameBuffer.new k = .ok b)
    (eo : Bool) (addr sz i j : Nat) (e : List U8) (hsz : sz = 1 ∨ sz = 2 ∨ sz = 4) :
    (b.count ≤ i → storeElem eo b addr sz i j e = .ok (.error .InvalidIndex)) ∧
    (∀ p, b.planes[i]? = some p →
      (addr % sz ≠ 0 → p.buf ≠ [] → storeElem eo b addr sz i j e = .ok (.error .InvalidConversion)) ∧
      (addr % sz = 0 → p.buf.length ≤ j * sz → storeElem eo b addr sz i j e = .error .index)) := by
  constructor
  · intro hi
    have : b.planes[i]? = none := List.getElem?_eq_none hi
    simp [storeElem, asSlice, DefaultFrameBuffer.asSliceInner, this]
  · intro p hp
    have hd : sz ∣ p.buf.length := by
      refine Nat.dvd_trans ?_ (planes_dvd hb p (List.mem_of_getElem? hp))
      rcases hsz with h | h | h <;> rw [h] <;> decide
    refine ⟨fun ha hne => ?_, fun ha hj => ?_⟩
    · simp [storeElem, asSlice, DefaultFrameBuffer.asSliceInner, hp, asSliceOf, ha, hne]
    · have := chunks_short (show 0 < sz by omega) p.buf.length p.buf (Nat.le_refl _) j hj
      simp only [storeElem, asSlice, DefaultFrameBuffer.asSliceInner, hp, asSliceOf, ha,
        Nat.mod_eq_zero_of_dvd hd, true_or, and_self, if_true]
      rw [if_neg (by omega)]

example (eo : Bool) : ∃ b, DefaultFrameBuffer.new (.Audio (.new 3 48000 ⟨[.C]⟩ formats.F32 none)) = .ok b ∧
    ∃ b', storeAll eo 64 b [⟨0, 4, 1, [1, 2, 3, 4]⟩, ⟨0, 2, 3, [7, 8]⟩, ⟨0, 1, 0, [9]⟩] = .ok (.ok b') ∧
      (b'.asSliceInner 0).toOption.map (·.take 10) = some [9, 0, 0, 0, 1, 2, 7, 8, 0, 0] := by
  exact ⟨⟨[], [⟨List.replicate 32 0, 32⟩]⟩, by decide +kernel, _, rfl, by decide +kernel⟩

end Verif.Frame
