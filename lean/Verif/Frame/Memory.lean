import Verif.Frame.Views

/-!
# Property C161: a frame is memory

Any program of typed loads and stores through the views of a frame (frame.rs:329-340, 394-405), and of copies into it and out
of it (frame.rs:490-558), each call depending on the results of those before. The specification is an array of bytes for each
plane.
-/

namespace Verif.Frame
open Verif Verif.Audio Verif.Pixel

/-- What is called on a frame. -/
inductive FrameCall
  | load (sz i j : Nat)
  | store (s : Store)
  | copyIn (src : List (List U8)) (sls : List Nat)
  | copyOut (dst : List (List U8)) (dls : List Nat)
  | copyPlane (i : Nat) (dst : List U8) (dls : Nat)

/-- What comes back: the bytes of an element, planes, one plane, nothing, or an error of the view. -/
inductive FrameOut
  | bytes (l : List U8) | planes (ls : List (List U8)) | unit | refused (e : FrameError)
  deriving DecidableEq

/-- A program. -/
inductive FProg (X : Type)
  | done (x : X)
  | call (c : FrameCall) (next : FrameOut → FProg X)

variable {X : Type}

/-- One call: element `j` of `as_slice` (frame.rs:329-333, which panics behind the end), a store into `as_mut_slice`
(frame.rs:336-340), and the copies (frame.rs:490-501, 503-529, 531-558). -/
def Frame.call (eo : Bool) (base : Nat) (f : Frame) : FrameCall → Rust (FrameOut × Frame)
  | .load sz i j =>
    match asSlice eo ⟨[], f.planes⟩ (addrOf ⟨[], f.planes⟩ base i) sz i with
    | .error e => .ok (.refused e, f)
    | .ok es => match es[j]? with
      | none => .error .index
      | some e => .ok (.bytes e, f)
  | .store s => do
    match ← storeElem eo ⟨[], f.planes⟩ (addrOf ⟨[], f.planes⟩ base s.i) s.sz s.i s.j s.e with
    | .error e => return (.refused e, f)
    | .ok b => return (.unit, { f with planes := b.planes })
  | .copyIn src sls => do return (.unit, ← copyFromSlice f src sls)
  | .copyOut dst dls => do return (.planes (← copyFrameToBuffer f dst dls), f)
  | .copyPlane i dst dls => do return (.bytes (← copyPlaneToBuffer f i dst dls), f)

def FProg.run (eo : Bool) (base : Nat) : FProg X → Frame → Rust (X × Frame)
  | .done x, f => .ok (x, f)
  | .call c next, f => do
    let (o, f) ← f.call eo base c
    (next o).run eo base f

/-! ### the specification: arrays of bytes -/

/-- A plane has `len` bytes, and lines of `stride` bytes, of which `h` show `w` bytes of the picture. -/
structure Area where
  len : Nat
  stride : Nat
  w : Nat
  h : Nat
  deriving DecidableEq

/-- Byte `x` of plane `i`. -/
abbrev Memory := Nat → Nat → U8

/-- Is byte `x` in the picture, if lines have `l` bytes? -/
abbrev Seen (w h l x : Nat) : Prop := x / l < h ∧ x % l < w

/-- A line's bytes from one stride to another. -/
abbrev moved (l l' x : Nat) : Nat := x / l * l' + x % l

/-- One call. -/
def Memory.call (w h : Nat) (S : List Area) (m : Memory) : FrameCall → FrameOut × Memory
  | .load sz i j =>
    if i < S.length then (.bytes ((List.range sz).map fun k => m i (j * sz + k)), m) else (.refused .InvalidIndex, m)
  | .store s =>
    if s.i < S.length then
      (.unit, fun i x => if s.i = i ∧ s.j * s.sz ≤ x ∧ x < s.j * s.sz + s.sz then s.e.getD (x - s.j * s.sz) 0 else m i x)
    else (.refused .InvalidIndex, m)
  | .copyIn src sls =>
    (.unit, fun i x => match S[i]? with
      | some a => if Seen a.w a.h a.stride x then (src.getD i []).getD (moved a.stride (sls.getD i 0) x) 0 else m i x
      | none => m i x)
  | .copyOut dst dls =>
    (.planes (dst.mapIdx fun i d => d.mapIdx fun x old => match S[i]? with
      | some a => if Seen a.w a.h (dls.getD i 0) x then m i (moved (dls.getD i 0) a.stride x) else old
      | none => old), m)
  | .copyPlane i dst dls =>
    (.bytes (dst.mapIdx fun x old => match S[i]? with
      | some a => if Seen w h dls x then m i (moved dls a.stride x) else old
      | none => old), m)

def FProg.runMemory (w h : Nat) (S : List Area) : FProg X → Memory → X × Memory
  | .done x, m => (x, m)
  | .call c next, m => (next (m.call w h S c).1).runMemory w h S (m.call w h S c).2

/-- Calls that keep to their slices: elements of 1, 2 or 4 bytes inside the planes that exist, buffers with room for the
picture of each component, and single planes that are as large as the picture. -/
def FrameCall.Inside (base w h : Nat) (S : List Area) : FrameCall → Prop
  | .load sz i j => (sz = 1 ∨ sz = 2 ∨ sz = 4) ∧ base % sz = 0 ∧ ∀ a, S[i]? = some a → j * sz + sz ≤ a.len
  | .store s => (s.sz = 1 ∨ s.sz = 2 ∨ s.sz = 4) ∧ base % s.sz = 0 ∧ s.e.length = s.sz ∧
      ∀ a, S[s.i]? = some a → s.j * s.sz + s.sz ≤ a.len
  | .copyIn src sls => AllRoomy src sls (S.map fun a => (a.w, a.h))
  | .copyOut dst dls => AllRoomy dst dls (S.map fun a => (a.w, a.h))
  | .copyPlane i dst dls => Roomy dst.length dls w h ∧ ∃ a, S[i]? = some a ∧ Roomy a.len a.stride w h

/-- All calls of a program are such, whatever it has seen. -/
def FProg.Inside (base w h : Nat) (S : List Area) : FProg X → Prop
  | .done _ => True
  | .call c next => c.Inside base w h S ∧ ∀ o, (next o).Inside base w h S

/-- The frame shows the components of `v` with the areas `S`. -/
structure Laid (v : VideoInfo) (S : List Area) (f : Frame) : Prop where
  kind : f.kind = .Video v
  dims : DimsOf v.width v.height v.format.comp_info (S.map fun a => (a.w, a.h))
  length : f.planes.length = S.length
  plane : ∀ (i : Nat) (p : Plane) a, f.planes[i]? = some p → S[i]? = some a →
    p.buf.length = a.len ∧ p.linesize = a.stride ∧ Roomy a.len a.stride a.w a.h ∧ 32 ∣ a.len

/-- The planes hold the bytes of `m`. -/
def Holds (f : Frame) (m : Memory) : Prop :=
  ∀ (i : Nat) (p : Plane), f.planes[i]? = some p → ∀ x < p.buf.length, p.buf[x]? = some (m i x)

/-! ### lemmas -/

theorem allShow_get {ds : List (List U8)} {dls : List Nat} {ss : List (List U8)} {sls : List Nat} {cs : List (Nat × Nat)}
    {os : List (List U8)} (h : AllShow ds dls ss sls cs os) : os.length = ds.length ∧
    ∀ (i : Nat) (d : List U8) (dl : Nat) (s : List U8) (sl : Nat) (c : Nat × Nat) (o : List U8), ds[i]? = some d →
      dls[i]? = some dl → ss[i]? = some s → sls[i]? = some sl → cs[i]? = some c → os[i]? = some o →
      Shows d dl s sl c.1 c.2 o := by
  induction ds generalizing dls ss sls cs os with
  | nil =>
    cases dls <;> cases ss <;> cases sls <;> cases cs <;> cases os <;> first | exact h.elim | skip
    exact ⟨rfl, fun i d dl s sl c o hd => by simp at hd⟩
  | cons d ds ih =>
    cases dls <;> cases ss <;> cases sls <;> cases cs <;> cases os <;> first | exact h.elim | skip
    obtain ⟨h1, h2⟩ := h
    obtain ⟨i1, i2⟩ := ih h2
    refine ⟨by simp [i1], fun i d dl s sl c o a1 a2 a3 a4 a5 a6 => ?_⟩
    cases i with
    | zero =>
      simp only [List.getElem?_cons_zero, Option.some.injEq] at a1 a2 a3 a4 a5 a6
      subst a1 a2 a3 a4 a5 a6
      exact h1
    | succ i =>
      simp only [List.getElem?_cons_succ] at a1 a2 a3 a4 a5 a6
      exact i2 i d dl s sl c o a1 a2 a3 a4 a5 a6

theorem allRoomy_get {ds : List (List U8)} {ls : List Nat} {cs : List (Nat × Nat)} (h : AllRoomy ds ls cs) :
    ds.length = cs.length ∧ ls.length = cs.length ∧ ∀ (i : Nat) (d : List U8) (l : Nat) (c : Nat × Nat), ds[i]? = some d →
      ls[i]? = some l → cs[i]? = some c → Roomy d.length l c.1 c.2 := by
  induction ds generalizing ls cs with
  | nil =>
    cases ls <;> cases cs <;> first | exact h.elim | skip
    exact ⟨rfl, rfl, fun i d l c hd => by simp at hd⟩
  | cons d ds ih =>
    cases ls <;> cases cs <;> first | exact h.elim | skip
    obtain ⟨h1, h2⟩ := h
    obtain ⟨i1, i2, i3⟩ := ih h2
    refine ⟨by simp [i1], by simp [i2], fun i d l c a1 a2 a3 => ?_⟩
    cases i with
    | zero =>
      simp only [List.getElem?_cons_zero, Option.some.injEq] at a1 a2 a3
      subst a1 a2 a3
      exact h1
    | succ i =>
      simp only [List.getElem?_cons_succ] at a1 a2 a3
      exact i3 i d l c a1 a2 a3

theorem allRoomy_of {ds : List (List U8)} {ls : List Nat} {cs : List (Nat × Nat)} (h1 : ds.length = cs.length)
    (h2 : ls.length = cs.length) (h3 : ∀ (i : Nat) (d : List U8) (l : Nat) (c : Nat × Nat), ds[i]? = some d →
      ls[i]? = some l → cs[i]? = some c → Roomy d.length l c.1 c.2) : AllRoomy ds ls cs := by
  induction ds generalizing ls cs with
  | nil =>
    cases cs with
    | cons c cs => simp at h1
    | nil =>
      cases ls with
      | cons l ls => simp at h2
      | nil => trivial
  | cons d ds ih =>
    cases cs with
    | nil => simp at h1
    | cons c cs =>
      cases ls with
      | nil => simp at h2
      | cons l ls =>
        exact ⟨h3 0 d l c rfl rfl rfl, ih (by simpa using h1) (by simpa using h2)
          fun i d l c a1 a2 a3 => h3 (i + 1) d l c (by simpa using a1) (by simpa using a2) (by simpa using a3)⟩

theorem getElem?_some_of_lt {α β : Type} {l : List α} {k : List β} (h : l.length = k.length) {i : Nat} {a : α}
    (ha : l[i]? = some a) : ∃ b, k[i]? = some b := by
  obtain ⟨hi, _⟩ := List.getElem?_eq_some_iff.1 ha
  exact ⟨k[i]'(by omega), List.getElem?_eq_getElem _⟩

theorem Laid.roomy {v : VideoInfo} {S : List Area} {f : Frame} (hf : Laid v S f) :
    AllRoomy (f.planes.map (·.buf)) (f.planes.map (·.linesize)) (S.map fun a => (a.w, a.h)) := by
  refine allRoomy_of (by simp [hf.length]) (by simp [hf.length]) fun i d l c a1 a2 a3 => ?_
  rw [List.getElem?_map, Option.map_eq_some_iff] at a1 a2 a3
  obtain ⟨p, b1, rfl⟩ := a1
  obtain ⟨p', b2, rfl⟩ := a2
  obtain ⟨a, b3, rfl⟩ := a3
  rw [b1] at b2
  cases b2
  obtain ⟨c1, c2, c3, _⟩ := hf.plane i p a b1 b3
  rw [c1, c2]
  exact c3

/-- Frames of the same kind whose planes have the same sizes are laid alike. -/
theorem Laid.of_planes {v : VideoInfo} {S : List Area} {f f' : Frame} (hf : Laid v S f) (hk : f'.kind = f.kind)
    (hl : f'.planes.length = f.planes.length) (hp : ∀ (i : Nat) (p p' : Plane), f.planes[i]? = some p → f'.planes[i]? = some p' →
      p'.buf.length = p.buf.length ∧ p'.linesize = p.linesize) : Laid v S f' := by
  refine ⟨hk.trans hf.kind, hf.dims, hl.trans hf.length, fun i p' a h1 h2 => ?_⟩
  obtain ⟨p, h3⟩ := getElem?_some_of_lt hl h1
  obtain ⟨g1, g2⟩ := hp i p p' h3 h1
  obtain ⟨c1, c2, c3, c4⟩ := hf.plane i p a h3 h2
  exact ⟨g1.trans c1, g2.trans c2, c3, c4⟩

theorem Laid.whole {v : VideoInfo} {S : List Area} {f : Frame} (hf : Laid v S f) : Whole ⟨[], f.planes⟩ := by
  intro p hp
  obtain ⟨i, hi⟩ := List.getElem?_of_mem hp
  obtain ⟨a, ha⟩ := getElem?_some_of_lt hf.length hi
  obtain ⟨c1, _, _, c4⟩ := hf.plane i p a hi ha
  rw [c1]; exact c4

theorem chunks_get {n : Nat} (hn : 0 < n) (fuel : Nat) (l : List U8) (hl : l.length ≤ fuel) (j : Nat)
    (hj : j * n + n ≤ l.length) : (chunksAux n fuel l)[j]? = some ((l.drop (j * n)).take n) := by
  induction fuel generalizing l j with
  | zero => omega
  | succ fuel ih =>
    have hne : l ≠ [] := by
      intro h; subst h; simp at hj; omega
    rw [chunksAux_cons n fuel l hne]
    cases j with
    | zero => simp
    | succ j =>
      have hjn : (j + 1) * n = j * n + n := by rw [Nat.add_mul, Nat.one_mul]
      have := List.length_pos_iff.2 hne
      rw [List.getElem?_cons_succ, ih (l.drop n) (by rw [List.length_drop]; omega) j (by rw [List.length_drop]; omega),
        List.drop_drop, hjn, Nat.add_comm]

/-- What a copy shows, byte by byte. -/
theorem shows_get {dst : List U8} {dl : Nat} {src : List U8} {sl w h : Nat} {out : List U8} (hs : Shows dst dl src sl w h out)
    (x : Nat) : out[x]? =
      if Seen w h dl x then src[moved dl sl x]? else dst[x]? := by
  obtain ⟨_, h2, h3⟩ := hs
  by_cases hx : Seen w h dl x
  · rw [if_pos hx, ← h2 _ hx.1 _ hx.2]
    congr 1
    rw [Nat.mul_comm, Nat.div_add_mod]
  · rw [if_neg hx]
    exact h3 x hx

theorem seen_lt {l w h l' len' x : Nat} (h' : Roomy len' l' w h) (hx : Seen w h l x) : moved l l' x < len' := by
  have := h'.rows _ hx.1
  have := hx.2
  unfold moved
  omega

/-- One call on a frame is one on the memory. -/
theorem call_memory (eo : Bool) (base : Nat) {v : VideoInfo} {S : List Area} {f : Frame} (hf : Laid v S f) {m : Memory}
    (hm : Holds f m) (c : FrameCall) (hc : c.Inside base v.width v.height S) :
    ∃ f', f.call eo base c = .ok ((m.call v.width v.height S c).1, f') ∧ Laid v S f' ∧ f'.t = f.t ∧
      Holds f' (m.call v.width v.height S c).2 := by
  cases c with
  | load sz i j =>
    obtain ⟨h1, h2, h3⟩ := hc
    by_cases hi : i < S.length
    · have hi' : i < f.planes.length := by rw [hf.length]; exact hi
      have hp : f.planes[i]? = some f.planes[i] := List.getElem?_eq_getElem hi'
      have ha : S[i]? = some S[i] := List.getElem?_eq_getElem hi
      generalize f.planes[i] = p at hp
      generalize S[i] = a at ha
      obtain ⟨c1, c2, c3, c4⟩ := hf.plane i p a hp ha
      have h4 := h3 a ha
      have hd : sz ∣ p.buf.length := by
        rw [c1]
        refine Nat.dvd_trans ?_ c4
        rcases h1 with h | h | h <;> rw [h] <;> decide
      refine ⟨f, ?_, hf, rfl, ?_⟩
      · have hg := chunks_get (show 0 < sz by omega) p.buf.length p.buf (Nat.le_refl _) j (by rw [c1]; exact h4)
        simp only [Frame.call, asSlice, DefaultFrameBuffer.asSliceInner, hp, asSliceOf,
          addr_aligned hf.whole base sz i h1 h2, Nat.mod_eq_zero_of_dvd hd, true_or, and_self, if_true, hg, Memory.call, if_pos hi]
        congr 3
        apply List.ext_getElem?
        intro k
        rw [List.getElem?_take, List.getElem?_drop, List.getElem?_map]
        by_cases hk : k < sz
        · rw [if_pos hk, hm i p hp _ (by rw [c1]; omega), List.getElem?_range hk]
          rfl
        · rw [if_neg hk, List.getElem?_eq_none (by rw [List.length_range]; omega)]
          rfl
      · simp only [Memory.call, if_pos hi]; exact hm
    · have hp : f.planes[i]? = none := List.getElem?_eq_none (by rw [hf.length]; omega)
      refine ⟨f, ?_, hf, rfl, ?_⟩
      · simp only [Frame.call, asSlice, DefaultFrameBuffer.asSliceInner, hp, Memory.call, if_neg hi]
      · simp only [Memory.call, if_neg hi]; exact hm
  | store s =>
    obtain ⟨h1, h2, h3, h4⟩ := hc
    by_cases hi : s.i < S.length
    · have hi' : s.i < f.planes.length := by rw [hf.length]; exact hi
      have hp : f.planes[s.i]? = some f.planes[s.i] := List.getElem?_eq_getElem hi'
      have ha : S[s.i]? = some S[s.i] := List.getElem?_eq_getElem hi
      generalize f.planes[s.i] = p at hp
      generalize S[s.i] = a at ha
      obtain ⟨c1, c2, c3, c4⟩ := hf.plane s.i p a hp ha
      have h5 := h4 a ha
      obtain ⟨b, k1, k2, k3, k4, k5, k6⟩ := storeElem_spec eo hf.whole (addrOf ⟨[], f.planes⟩ base s.i) s p hp h1
        (addr_aligned hf.whole base s.sz s.i h1 h2) h3 (by rw [c1]; exact h5)
      refine ⟨{ f with planes := b.planes }, ?_, ?_, rfl, ?_⟩
      · simp only [Frame.call, k1, ok_bind, Memory.call, if_pos hi]; rfl
      · refine hf.of_planes rfl k3 fun i p p' g1 g2 => ?_
        have e1 := k5 i
        have e2 := k4 i
        simp only at g2
        simp only [g1, g2, Option.map_some, Option.some.injEq] at e1
        simp only [DefaultFrameBuffer.linesize, g1, g2, Except.ok.injEq] at e2
        exact ⟨e1, e2⟩
      · intro i p' hp' x hx
        obtain ⟨q, hq⟩ := getElem?_some_of_lt (k := f.planes) k3 hp'
        have e1 := k5 i
        simp only at hp'
        simp only [hq, hp', Option.map_some, Option.some.injEq] at e1
        have := k6 i x
        simp only [byteAt, DefaultFrameBuffer.asSliceInner, hp', hq, Except.toOption, Option.bind_eq_bind, Option.bind_some] at this
        rw [this, hm i q hq x (by omega)]
        simp only [Option.map_some, byteAfter, Memory.call, if_pos hi]
    · have hp : f.planes[s.i]? = none := List.getElem?_eq_none (by rw [hf.length]; omega)
      refine ⟨f, ?_, hf, rfl, ?_⟩
      · simp only [Frame.call, storeElem, asSlice, DefaultFrameBuffer.asSliceInner, hp, Memory.call, if_neg hi, ok_bind]; rfl
      · simp only [Memory.call, if_neg hi]; exact hm
  | copyIn src sls =>
    obtain ⟨_, f', g1, g2, g3, g4, g5⟩ := c49_copies f v hf.kind _ hf.dims hf.roomy src sls hc
    obtain ⟨s1, s2⟩ := allShow_get g5
    obtain ⟨r1, r2, r3⟩ := allRoomy_get hc
    have hl : f'.planes.length = f.planes.length := by simpa using s1
    have key : ∀ (i : Nat) (p p' : Plane) (a : Area), f.planes[i]? = some p → f'.planes[i]? = some p' → S[i]? = some a →
        Shows p.buf a.stride (src.getD i []) (sls.getD i 0) a.w a.h p'.buf ∧ Roomy (src.getD i []).length (sls.getD i 0) a.w a.h := by
      intro i p p' a hp hp' ha
      obtain ⟨d, hd⟩ := getElem?_some_of_lt (show S.length = src.length by simpa using r1.symm) ha
      obtain ⟨l, hls⟩ := getElem?_some_of_lt (show S.length = sls.length by simpa using r2.symm) ha
      obtain ⟨c1, c2, c3, c4⟩ := hf.plane i p a hp ha
      have e1 : src.getD i [] = d := by rw [List.getD_eq_getElem?_getD, hd]; rfl
      have e2 : sls.getD i 0 = l := by rw [List.getD_eq_getElem?_getD, hls]; rfl
      have e3 : (S.map fun a => (a.w, a.h))[i]? = some (a.w, a.h) := by rw [List.getElem?_map, ha]; rfl
      rw [e1, e2]
      exact ⟨s2 i p.buf a.stride d l _ p'.buf (by rw [List.getElem?_map, hp]; rfl)
        (by rw [List.getElem?_map, hp]; simp [c2]) hd hls e3 (by rw [List.getElem?_map, hp']; rfl), r3 i d l _ hd hls e3⟩
    have hlen : ∀ (i : Nat) (p p' : Plane), f.planes[i]? = some p → f'.planes[i]? = some p' →
        p'.buf.length = p.buf.length ∧ p'.linesize = p.linesize := by
      intro i p p' hp hp'
      obtain ⟨a, ha⟩ := getElem?_some_of_lt hf.length hp
      refine ⟨(key i p p' a hp hp' ha).1.1, ?_⟩
      have := congrArg (fun l : List Nat => l[i]?) g4
      simpa [List.getElem?_map, hp, hp'] using this
    refine ⟨f', by simp only [Frame.call, g1, ok_bind, Memory.call]; rfl, hf.of_planes g2 hl hlen, g3, ?_⟩
    intro i p' hp' x hx
    obtain ⟨p, hp⟩ := getElem?_some_of_lt hl hp'
    obtain ⟨a, ha⟩ := getElem?_some_of_lt hf.length hp
    obtain ⟨c1, c2, c3, c4⟩ := hf.plane i p a hp ha
    obtain ⟨k1, k2⟩ := key i p p' a hp hp' ha
    rw [shows_get k1]
    simp only [Memory.call, ha]
    by_cases hs : Seen a.w a.h a.stride x
    · rw [if_pos hs, if_pos hs]
      have := seen_lt k2 hs
      generalize src.getD i [] = d at this ⊢
      generalize sls.getD i 0 = l at this ⊢
      rw [List.getD_eq_getElem?_getD, List.getElem?_eq_getElem this]
      rfl
    · rw [if_neg hs, if_neg hs]
      exact hm i p hp x (by rw [← (hlen i p p' hp hp').1]; exact hx)
  | copyOut dst dls =>
    obtain ⟨⟨out, g1, g5⟩, _⟩ := c49_copies f v hf.kind _ hf.dims hf.roomy dst dls hc
    obtain ⟨s1, s2⟩ := allShow_get g5
    obtain ⟨r1, r2, r3⟩ := allRoomy_get hc
    refine ⟨f, ?_, hf, rfl, hm⟩
    simp only [Frame.call, g1, ok_bind, Memory.call, pure_eq_ok]
    congr 3
    apply List.ext_getElem?
    intro i
    rw [List.getElem?_mapIdx]
    cases hd : dst[i]? with
    | none =>
      rw [List.getElem?_eq_none_iff] at hd
      exact List.getElem?_eq_none (by omega)
    | some d =>
      obtain ⟨o, ho⟩ := getElem?_some_of_lt s1.symm hd
      obtain ⟨a, ha⟩ := getElem?_some_of_lt (show dst.length = S.length by simpa using r1) hd
      obtain ⟨l, hls⟩ := getElem?_some_of_lt (show dst.length = dls.length by simp at r1 r2; omega) hd
      obtain ⟨p, hp⟩ := getElem?_some_of_lt hf.length.symm ha
      obtain ⟨c1, c2, c3, c4⟩ := hf.plane i p a hp ha
      have e2 : dls.getD i 0 = l := by rw [List.getD_eq_getElem?_getD, hls]; rfl
      have e3 : (S.map fun a => (a.w, a.h))[i]? = some (a.w, a.h) := by rw [List.getElem?_map, ha]; rfl
      have hsh := s2 i d l p.buf a.stride _ o hd hls (by rw [List.getElem?_map, hp]; rfl)
        (by rw [List.getElem?_map, hp]; simp [c2]) e3 ho
      rw [ho, e2]
      simp only [Option.map_some, ha, Option.some.injEq]
      apply List.ext_getElem?
      intro x
      rw [shows_get hsh, List.getElem?_mapIdx]
      by_cases hs : Seen a.w a.h l x
      · rw [if_pos hs, hm i p hp _ (by rw [c1]; exact seen_lt c3 hs)]
        have hx : x < d.length := by
          have := seen_lt (r3 i d l _ hd hls e3) hs
          unfold moved at this
          rwa [Nat.mul_comm, Nat.div_add_mod] at this
        rw [List.getElem?_eq_getElem hx, Option.map_some, if_pos hs]
      · rw [if_neg hs]
        cases d[x]? with
        | none => rfl
        | some b => rw [Option.map_some, if_neg hs]
  | copyPlane i dst dls =>
    obtain ⟨rd, a, ha, rs⟩ := hc
    obtain ⟨p, hp⟩ := getElem?_some_of_lt hf.length.symm ha
    obtain ⟨c1, c2, c3, c4⟩ := hf.plane i p a hp ha
    obtain ⟨out, g1, g2⟩ := copyPlane_roomy (dst := dst) (src := p.buf) rd (show Roomy p.buf.length p.linesize _ _ by rw [c1, c2]; exact rs)
    refine ⟨f, ?_, hf, rfl, hm⟩
    simp only [Frame.call, copyPlaneToBuffer, hf.kind, hp, g1, ok_bind, Memory.call, pure_eq_ok, ha]
    congr 3
    apply List.ext_getElem?
    intro x
    rw [shows_get (show Shows dst dls p.buf p.linesize v.width v.height out from g2), List.getElem?_mapIdx, c2]
    by_cases hs : Seen v.width v.height dls x
    · rw [if_pos hs, hm i p hp _ (by rw [c1]; exact seen_lt rs hs)]
      have hx : x < dst.length := by
        have := seen_lt rd hs
        unfold moved at this
        rwa [Nat.mul_comm, Nat.div_add_mod] at this
      rw [List.getElem?_eq_getElem hx, Option.map_some, if_pos hs]
    · rw [if_neg hs]
      cases dst[x]? with
      | none => rfl
      | some b => rw [Option.map_some, if_neg hs]

/-! ### C161 -/

/-- **C161** On a frame whose planes have room for their components, any program whose calls keep to their slices runs as on
arrays of bytes: nothing panics, every result is the one the arrays give, the frame then holds the bytes of the arrays, and
its description, times and the sizes of its planes are unchanged. -/
theorem c161_memory (eo : Bool) (base : Nat) {v : VideoInfo} {S : List Area} {f : Frame} (hf : Laid v S f) {m : Memory}
    (hm : Holds f m) (P : FProg X) (hP : P.Inside base v.width v.height S) :
    ∃ f', P.run eo base f = .ok ((P.runMemory v.width v.height S m).1, f') ∧ Laid v S f' ∧ f'.t = f.t ∧
      Holds f' (P.runMemory v.width v.height S m).2 := by
  induction P generalizing f m with
  | done x => exact ⟨f, rfl, hf, rfl, hm⟩
  | call c next ih =>
    obtain ⟨f1, a1, a2, a3, a4⟩ := call_memory eo base hf hm c hP.1
    obtain ⟨f2, b1, b2, b3, b4⟩ := ih _ a2 a4 (hP.2 _)
    exact ⟨f2, by simp only [FProg.run, a1, ok_bind]; exact b1, b2, b3.trans a3, b4⟩

/-- The areas of a frame's planes. -/
def areas (ps : List Plane) (dims : List (Nat × Nat)) : List Area :=
  List.zipWith (fun p d => ⟨p.buf.length, p.linesize, d.1, d.2⟩) ps dims

/-- **C161** on a new frame, if its components have eight bits or more: it starts with zero bytes. -/
theorem c161_default (eo : Bool) (base : Nat) (v : VideoInfo) (t : Option TimeInfo) (s : Nat) (hs : v.size 32 = .ok s)
    (cs : List Chromaton) (hfm : v.format.comp_info = cs.map some ++ List.replicate (5 - cs.length) none)
    (hc : ∀ c ∈ cs, 8 ≤ c.depth ∧ Fits c v.width 5) (hw : 0 < v.width) :
    ∃ f dims, newDefaultFrame (.Video v) t = .ok f ∧ DimsOf v.width v.height v.format.comp_info dims ∧
      f.planes.length = cs.length ∧ dims.length = cs.length ∧
      ∀ P : FProg X, P.Inside base v.width v.height (areas f.planes dims) → ∃ f', P.run eo base f =
          .ok ((P.runMemory v.width v.height (areas f.planes dims) fun _ _ => 0).1, f') ∧
        Laid v (areas f.planes dims) f' ∧ f'.t = f.t ∧
        Holds f' (P.runMemory v.width v.height (areas f.planes dims) fun _ _ => 0).2 := by
  obtain ⟨f, dims, a1, a2, a3, a4⟩ := c49_default v t s hs cs hfm hc hw
  obtain ⟨b1, b2, b3⟩ := allRoomy_get a4
  have hpl : f.planes.length = dims.length := by simpa using b1
  obtain ⟨f0, c1, _, _, c4, _⟩ := c47_video v t s hs
  rw [a1] at c1
  cases c1
  have a1' := a1
  have hcs : (comps v.format).length = cs.length := by
    rw [comps, hfm, List.filterMap_append, List.filterMap_map]
    simp
  obtain ⟨b, hb, hpb⟩ : ∃ b, DefaultFrameBuffer.new (.Video v) = .ok b ∧ f.planes = b.planes := by
    simp only [newDefaultFrame] at a1
    cases hb : DefaultFrameBuffer.new (.Video v) with
    | error e => rw [hb] at a1; cases a1
    | ok b => rw [hb] at a1; cases a1; exact ⟨b, rfl, rfl⟩
  have hal : (areas f.planes dims).length = f.planes.length := by
    rw [areas, List.length_zipWith]; omega
  have hmap : (areas f.planes dims).map (fun a => (a.w, a.h)) = dims := by
    rw [areas, List.map_zipWith]
    apply List.ext_getElem?
    intro i
    rw [List.getElem?_zipWith]
    cases hd : dims[i]? with
    | none => cases f.planes[i]? <;> rfl
    | some d =>
      obtain ⟨p, hp⟩ := getElem?_some_of_lt hpl.symm hd
      rw [hp]
  have hL : Laid v (areas f.planes dims) f := by
    refine ⟨a2, by rw [hmap]; exact a3, hal.symm, fun i p a h1 h2 => ?_⟩
    obtain ⟨d, hd⟩ := getElem?_some_of_lt hpl h1
    rw [areas, List.getElem?_zipWith, h1, hd] at h2
    cases h2
    refine ⟨rfl, rfl, b3 i p.buf p.linesize d (by rw [List.getElem?_map, h1]; rfl) (by rw [List.getElem?_map, h1]; rfl) hd, ?_⟩
    exact planes_dvd hb p (by rw [← hpb]; exact List.mem_of_getElem? h1)
  have hH : Holds f fun _ _ => 0 := by
    intro i p hp x hx
    rw [List.getElem?_eq_getElem hx]
    congr 1
    exact (new_blank hb).2 p (by rw [← hpb]; exact List.mem_of_getElem? hp) _ (List.getElem_mem hx)
  exact ⟨f, dims, a1', a3, c4.trans hcs, by rw [← hcs, ← c4, hpl], fun P hP => c161_memory eo base hL hH P hP⟩

/-- A picture is copied in; then a byte outside of it and a pixel of two bytes are stored, and, depending on a byte of the
second plane, the picture is copied out. -/
def touches : FProg (List (List U8)) :=
  .call (.copyIn [[1, 2, 3, 4, 5, 6], [7, 8], [9, 10]] [3, 2, 2]) fun _ =>
  .call (.store ⟨0, 1, 31, [77]⟩) fun _ =>
  .call (.store ⟨0, 2, 16, [20, 21]⟩) fun _ =>
  .call (.load 1 1 1) fun o =>
  if o = .bytes [8] then .call (.copyOut [[0, 0, 0, 0, 0, 0, 0, 99], [0, 0], [0, 0]] [4, 2, 2]) fun
    | .planes ls => .done ls
    | _ => .done []
  else .done []

/-- C161 on it, and its result. -/
example : touches.Inside 64 3 2 [⟨64, 32, 3, 2⟩, ⟨32, 32, 2, 1⟩, ⟨32, 32, 2, 1⟩] ∧
    (touches.runMemory 3 2 [⟨64, 32, 3, 2⟩, ⟨32, 32, 2, 1⟩, ⟨32, 32, 2, 1⟩] fun _ _ => 0).1 =
      [[1, 2, 3, 0, 20, 21, 6, 99], [7, 8], [9, 10]] ∧
    (match newDefaultFrame (.Video ⟨3, 2, false, .I, formats.YUV420, 24⟩) none with
      | .ok f => (match touches.run true 64 f with
        | .ok (ls, f) => decide (ls = [[1, 2, 3, 0, 20, 21, 6, 99], [7, 8], [9, 10]] ∧
            f.planes.map (fun p => p.buf.getD 31 0) = [77, 0, 0])
        | _ => false)
      | _ => false) = true := by
  refine ⟨?_, by decide +kernel, by decide +kernel⟩
  refine ⟨⟨⟨by decide, by decide, by decide⟩, ⟨by decide, by decide, by decide⟩, ⟨by decide, by decide, by decide⟩, trivial⟩,
    fun _ => ⟨⟨.inl rfl, rfl, rfl, fun a h => by cases h; decide⟩, fun _ => ⟨⟨.inr (.inl rfl), rfl, rfl, fun a h => by cases h; decide⟩,
      fun _ => ⟨⟨.inl rfl, rfl, fun a h => by cases h; decide⟩, fun o => ?_⟩⟩⟩⟩
  simp only
  split
  · refine ⟨⟨⟨by decide, by decide, by decide⟩, ⟨by decide, by decide, by decide⟩, ⟨by decide, by decide, by decide⟩, trivial⟩, fun o => ?_⟩
    cases o <;> trivial
  · trivial

/-! ### frames of any kind -/

/-- The planes of a frame, of whatever kind, have the sizes of `S`. -/
structure Sized (S : List Area) (f : Frame) : Prop where
  length : f.planes.length = S.length
  plane : ∀ (i : Nat) (p : Plane) a, f.planes[i]? = some p → S[i]? = some a → p.buf.length = a.len ∧ 32 ∣ a.len

theorem Sized.whole {S : List Area} {f : Frame} (hf : Sized S f) : Whole ⟨[], f.planes⟩ := by
  intro p hp
  obtain ⟨i, hi⟩ := List.getElem?_of_mem hp
  obtain ⟨a, ha⟩ := getElem?_some_of_lt hf.length hi
  obtain ⟨c1, c4⟩ := hf.plane i p a hi ha
  rw [c1]; exact c4

/-- Loads and stores only. -/
def FrameCall.View : FrameCall → Prop
  | .load .. => True
  | .store _ => True
  | _ => False

def FProg.Views : FProg X → Prop
  | .done _ => True
  | .call c next => c.View ∧ ∀ o, (next o).Views

theorem view_memory (eo : Bool) (base w h : Nat) {S : List Area} {f : Frame} (hf : Sized S f) {m : Memory}
    (hm : Holds f m) (c : FrameCall) (hv : c.View) (hc : c.Inside base w h S) :
    ∃ f', f.call eo base c = .ok ((m.call w h S c).1, f') ∧ Sized S f' ∧ f'.kind = f.kind ∧ f'.t = f.t ∧
      f'.planes.map (·.linesize) = f.planes.map (·.linesize) ∧ Holds f' (m.call w h S c).2 := by
  cases c with
  | load sz i j =>
    obtain ⟨h1, h2, h3⟩ := hc
    by_cases hi : i < S.length
    · have hi' : i < f.planes.length := by rw [hf.length]; exact hi
      have hp : f.planes[i]? = some f.planes[i] := List.getElem?_eq_getElem hi'
      have ha : S[i]? = some S[i] := List.getElem?_eq_getElem hi
      generalize f.planes[i] = p at hp
      generalize S[i] = a at ha
      obtain ⟨c1, c4⟩ := hf.plane i p a hp ha
      have h4 := h3 a ha
      have hd : sz ∣ p.buf.length := by
        rw [c1]
        refine Nat.dvd_trans ?_ c4
        rcases h1 with h | h | h <;> rw [h] <;> decide
      refine ⟨f, ?_, hf, rfl, rfl, rfl, ?_⟩
      · have hg := chunks_get (show 0 < sz by omega) p.buf.length p.buf (Nat.le_refl _) j (by rw [c1]; exact h4)
        simp only [Frame.call, asSlice, DefaultFrameBuffer.asSliceInner, hp, asSliceOf,
          addr_aligned hf.whole base sz i h1 h2, Nat.mod_eq_zero_of_dvd hd, true_or, and_self, if_true, hg, Memory.call, if_pos hi]
        congr 3
        apply List.ext_getElem?
        intro k
        rw [List.getElem?_take, List.getElem?_drop, List.getElem?_map]
        by_cases hk : k < sz
        · rw [if_pos hk, hm i p hp _ (by rw [c1]; omega), List.getElem?_range hk]
          rfl
        · rw [if_neg hk, List.getElem?_eq_none (by rw [List.length_range]; omega)]
          rfl
      · simp only [Memory.call, if_pos hi]; exact hm
    · have hp : f.planes[i]? = none := List.getElem?_eq_none (by rw [hf.length]; omega)
      refine ⟨f, ?_, hf, rfl, rfl, rfl, ?_⟩
      · simp only [Frame.call, asSlice, DefaultFrameBuffer.asSliceInner, hp, Memory.call, if_neg hi]
      · simp only [Memory.call, if_neg hi]; exact hm
  | store s =>
    obtain ⟨h1, h2, h3, h4⟩ := hc
    by_cases hi : s.i < S.length
    · have hi' : s.i < f.planes.length := by rw [hf.length]; exact hi
      have hp : f.planes[s.i]? = some f.planes[s.i] := List.getElem?_eq_getElem hi'
      have ha : S[s.i]? = some S[s.i] := List.getElem?_eq_getElem hi
      generalize f.planes[s.i] = p at hp
      generalize S[s.i] = a at ha
      obtain ⟨c1, c4⟩ := hf.plane s.i p a hp ha
      have h5 := h4 a ha
      obtain ⟨b, k1, k2, k3, k4, k5, k6⟩ := storeElem_spec eo hf.whole (addrOf ⟨[], f.planes⟩ base s.i) s p hp h1
        (addr_aligned hf.whole base s.sz s.i h1 h2) h3 (by rw [c1]; exact h5)
      refine ⟨{ f with planes := b.planes }, ?_, ?_, rfl, rfl, ?_, ?_⟩
      · simp only [Frame.call, k1, ok_bind, Memory.call, if_pos hi]; rfl
      · refine ⟨k3.trans hf.length, fun i p' a g2 g3 => ?_⟩
        obtain ⟨q, g1⟩ := getElem?_some_of_lt (k := f.planes) k3 g2
        have e1 := k5 i
        simp only at g2
        simp only [g1, g2, Option.map_some, Option.some.injEq] at e1
        exact ⟨e1.trans (hf.plane i q a g1 g3).1, (hf.plane i q a g1 g3).2⟩
      · apply List.ext_getElem?
        intro i
        rw [List.getElem?_map, List.getElem?_map]
        have e2 := k4 i
        simp only [DefaultFrameBuffer.linesize] at e2
        cases hq : f.planes[i]? with
        | none =>
          have : b.planes[i]? = none := by
            rw [List.getElem?_eq_none_iff] at hq ⊢
            have : b.planes.length = f.planes.length := k3
            omega
          rw [this]
        | some q =>
          obtain ⟨p', hp'⟩ := getElem?_some_of_lt (k := b.planes) (show f.planes.length = b.planes.length from k3.symm) hq
          rw [hp']
          simp only [hq, hp', Except.ok.injEq] at e2
          simp only [Option.map_some, e2]
      · intro i p' hp' x hx
        obtain ⟨q, hq⟩ := getElem?_some_of_lt (k := f.planes) k3 hp'
        have e1 := k5 i
        simp only at hp'
        simp only [hq, hp', Option.map_some, Option.some.injEq] at e1
        have := k6 i x
        simp only [byteAt, DefaultFrameBuffer.asSliceInner, hp', hq, Except.toOption, Option.bind_eq_bind, Option.bind_some] at this
        rw [this, hm i q hq x (by omega)]
        simp only [Option.map_some, byteAfter, Memory.call, if_pos hi]
    · have hp : f.planes[s.i]? = none := List.getElem?_eq_none (by rw [hf.length]; omega)
      refine ⟨f, ?_, hf, rfl, rfl, rfl, ?_⟩
      · simp only [Frame.call, storeElem, asSlice, DefaultFrameBuffer.asSliceInner, hp, Memory.call, if_neg hi, ok_bind]; rfl
      · simp only [Memory.call, if_neg hi]; exact hm
  | copyIn src sls => cases hv
  | copyOut dst dls => cases hv
  | copyPlane i dst dls => cases hv

/-- **C161** on frames of any kind, audio among them: loads and stores alone. -/
theorem c161_views (eo : Bool) (base w h : Nat) {S : List Area} {f : Frame} (hf : Sized S f) {m : Memory}
    (hm : Holds f m) (P : FProg X) (hv : P.Views) (hP : P.Inside base w h S) :
    ∃ f', P.run eo base f = .ok ((P.runMemory w h S m).1, f') ∧ Sized S f' ∧ f'.kind = f.kind ∧ f'.t = f.t ∧
      f'.planes.map (·.linesize) = f.planes.map (·.linesize) ∧ Holds f' (P.runMemory w h S m).2 := by
  induction P generalizing f m with
  | done x => exact ⟨f, rfl, hf, rfl, rfl, rfl, hm⟩
  | call c next ih =>
    obtain ⟨f1, a1, a2, a3, a4, a5, a6⟩ := view_memory eo base w h hf hm c hv.1 hP.1
    obtain ⟨f2, b1, b2, b3, b4, b5, b6⟩ := ih _ a2 a6 (hv.2 _) (hP.2 _)
    exact ⟨f2, by simp only [FProg.run, a1, ok_bind]; exact b1, b2, b3.trans a3, b4.trans a4, b5.trans a5, b6⟩

/-- New frames of every kind have such planes, of zero bytes. -/
theorem c161_blank (k : MediaKind) (t : Option TimeInfo) (f : Frame) (h : newDefaultFrame k t = .ok f) :
    Sized (f.planes.map fun p => ⟨p.buf.length, p.linesize, 0, 0⟩) f ∧ Holds f fun _ _ => 0 := by
  obtain ⟨b, hb, hpb⟩ : ∃ b, DefaultFrameBuffer.new k = .ok b ∧ f.planes = b.planes := by
    simp only [newDefaultFrame] at h
    cases hb : DefaultFrameBuffer.new k with
    | error e => rw [hb] at h; cases h
    | ok b => rw [hb] at h; cases h; exact ⟨b, rfl, rfl⟩
  refine ⟨⟨by simp, fun i p a h1 h2 => ?_⟩, fun i p hp x hx => ?_⟩
  · rw [List.getElem?_map, h1] at h2
    cases h2
    exact ⟨rfl, planes_dvd hb p (by rw [← hpb]; exact List.mem_of_getElem? h1)⟩
  · rw [List.getElem?_eq_getElem hx]
    congr 1
    exact (new_blank hb).2 p (by rw [← hpb]; exact List.mem_of_getElem? hp) _ (List.getElem_mem hx)

/-- Two samples of two bytes are stored and a byte of each is loaded. -/
def speaks : FProg (List FrameOut) :=
  .call (.store ⟨0, 2, 3, [10, 11]⟩) fun _ =>
  .call (.store ⟨1, 2, 0, [12, 13]⟩) fun _ =>
  .call (.load 1 0 7) fun a => .call (.load 1 1 0) fun b => .call (.load 1 2 0) fun c => .done [a, b, c]

/-- On a planar frame of two channels. -/
example : speaks.Views ∧ speaks.Inside 64 0 0 [⟨32, 32, 0, 0⟩, ⟨32, 32, 0, 0⟩] ∧
    (match newDefaultFrame (.Audio (.new 8 48000 ⟨[.L, .R]⟩ ⟨16, false, false, true, false, true⟩ none)) none with
      | .ok f => (match speaks.run true 64 f with
        | .ok (l, f) => decide (f.planes.map (fun p => (p.buf.length, p.linesize)) = [(32, 32), (32, 32)] ∧
            l = [.bytes [11], .bytes [12], .refused .InvalidIndex])
        | _ => false)
      | _ => false) = true := by
  refine ⟨⟨trivial, fun _ => ⟨trivial, fun _ => ⟨trivial, fun _ => ⟨trivial, fun _ => ⟨trivial, fun _ => trivial⟩⟩⟩⟩⟩, ?_, by decide +kernel⟩
  refine ⟨⟨.inr (.inl rfl), rfl, rfl, fun a h => by cases h; decide⟩, fun _ => ⟨⟨.inr (.inl rfl), rfl, rfl, fun a h => by cases h; decide⟩,
    fun _ => ⟨⟨.inl rfl, rfl, fun a h => by cases h; decide⟩, fun _ => ⟨⟨.inl rfl, rfl, fun a h => by cases h; decide⟩,
    fun _ => ⟨⟨.inl rfl, rfl, fun a h => by cases h⟩, fun _ => trivial⟩⟩⟩⟩⟩

end Verif.Frame
