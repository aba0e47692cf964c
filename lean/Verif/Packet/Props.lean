import Verif.Packet.Model
import Verif.Io.Reads

/-! # C59: packets over the wire -/

namespace Verif.Packet
open Verif Verif.Io Verif.Frame

/-- A packet as delivered by `get_packet`: the data and nothing else. -/
def bare (l : List U8) : Packet := ⟨l, none, -1, .default, false, false⟩

abbrev sinkWrite : Sink → List U8 → Rust (Except IoErr Nat × Sink) := fun s l => .ok (s.write l)

/-- **C59**, reading: through any reader, `get_packet(n)` returns exactly the next `n` bytes; it fails with
`UnexpectedEof` after delivering everything when fewer remain, and otherwise only with an error of the reader that is
no interruption. It returns as soon as the reader stops failing. -/
theorem c59_get {R : Type} (rd : Reader R) (fuel : Nat) (r : R) (n : Nat) (hi : rd.Inv r) :
    (getPacket rd.read fuel r n = .error .fuel ∧ ¬ (rd.bounded ∧ n + rd.budget r < fuel)) ∨
    ∃ x r', getPacket rd.read fuel r n = .ok (x, r') ∧ rd.Inv r' ∧
      (∀ p, x = .ok p → p = bare p.data ∧ p.data.length = n ∧ rd.rem r = p.data ++ rd.rem r') ∧
      (∀ e, x = .error e → (e = .unexpectedEof ∧ (rd.rem r).length < n ∧ rd.rem r' = []) ∨
        (rd.fails e ∧ e ≠ .interrupted)) := by
  have hz : (zeroed n).data.length = n := by simp [zeroed]
  simp only [getPacket, hz]
  rcases readExact_reader rd fuel r n hi with ⟨h1, h2⟩ | ⟨x, r', h1, h2, _, h3, h4⟩
  · exact .inl ⟨by rw [h1]; rfl, h2⟩
  · rw [h1]
    simp only [ok_bind]
    cases x with
    | error e =>
      refine .inr ⟨_, _, rfl, h2, (fun p hp => nomatch hp), fun e' he => ?_⟩
      cases he
      exact (h4 e rfl).imp_right fun h => ⟨h.1, h.2.1⟩
    | ok l =>
      obtain ⟨a1, a2⟩ := h3 l rfl
      refine .inr ⟨_, _, rfl, h2, fun p hp => ?_, (fun e he => nomatch he)⟩
      cases hp
      exact ⟨rfl, a1, a2⟩

/-- **C59**, reading without failures: the outcome depends only on how many bytes remain. -/
theorem c59_get_total {R : Type} (rd : Reader R) (hb : rd.bounded) (hf : ∀ e, rd.fails e → e = .interrupted)
    (fuel : Nat) (r : R) (n : Nat) (hi : rd.Inv r) (hn : n + rd.budget r < fuel) :
    (n ≤ (rd.rem r).length → ∃ r', getPacket rd.read fuel r n = .ok (.ok (bare ((rd.rem r).take n)), r') ∧ rd.Inv r' ∧
      rd.rem r' = (rd.rem r).drop n) ∧
    ((rd.rem r).length < n → ∃ r', getPacket rd.read fuel r n = .ok (.error .unexpectedEof, r')) := by
  rcases c59_get rd fuel r n hi with ⟨_, h2⟩ | ⟨x, r', h1, h2, h3, h4⟩
  · exact absurd ⟨hb, hn⟩ h2
  · cases x with
    | error e =>
      rcases h4 e rfl with ⟨a1, a2, _⟩ | ⟨a1, a2⟩
      · exact ⟨fun h => by omega, fun _ => ⟨r', by rw [h1, a1]⟩⟩
      · exact absurd (hf e a1) a2
    | ok p =>
      obtain ⟨a1, a2, a3⟩ := h3 p rfl
      refine ⟨fun _ => ⟨r', ?_, h2, ?_⟩, fun h => ?_⟩
      · rw [h1, a3, ← a2, List.take_left, ← a1]
      · rw [a3, ← a2, List.drop_left]
      · rw [a3, List.length_append] at h; omega

/-- **C59**, writing: `put_packet` writes exactly the packet's data, or a proper prefix of it and returns the error. -/
theorem c59_put (fuel : Nat) (s : Sink) (p : Packet) (N : Nat) :
    (putPacket sinkWrite fuel s p = .error .fuel ∧
      ¬ ((∀ c, N ≤ c → (s.script c).fail = none) ∧ p.data.length + (N - s.clock) < fuel)) ∨
    ∃ x s', putPacket sinkWrite fuel s p = .ok (x, s') ∧ s'.script = s.script ∧
      (x = .ok () → s'.data = overwrite s.data s.pos p.data ∧ s'.pos = s.pos + p.data.length) ∧
      (∀ e, x = .error e → (∃ k, k < p.data.length ∧ s'.data = overwrite s.data s.pos (p.data.take k) ∧
          s'.pos = s.pos + k) ∧
        e ≠ .interrupted ∧ ∃ c, (s.script c).fail = some e ∨ (e = .writeZero ∧ (s.script c).len = 0)) := by
  rcases Sink.writeAll_spec fuel s p.data N with h | ⟨x, s', h1, h2, _, _, h3, h4⟩
  · exact .inl h
  · exact .inr ⟨x, s', h1, h2, h3, fun e he => ⟨(h4 e he).2.1, (h4 e he).1, (h4 e he).2.2⟩⟩

theorem putAll_spec (fuel : Nat) (ps : List Packet) (s s' : Sink) (h : putAll sinkWrite fuel s ps = .ok (.ok (), s')) :
    s'.data = overwrite s.data s.pos (ps.map (·.data)).flatten ∧ s'.pos = s.pos + (ps.map (·.data)).flatten.length := by
  induction ps generalizing s with
  | nil => simp only [putAll, Except.ok.injEq, Prod.mk.injEq, true_and] at h; subst h; simp [overwrite_nil]
  | cons p ps ih =>
    simp only [putAll] at h
    rcases c59_put fuel s p 0 with ⟨h1, _⟩ | ⟨x, s1, h1, _, h2, _⟩
    · simp [h1] at h
    · rw [h1] at h
      cases x with
      | error e => simp at h
      | ok u =>
        obtain ⟨a1, a2⟩ := h2 rfl
        obtain ⟨b1, b2⟩ := ih s1 h
        rw [a1, a2, overwrite_append] at b1
        refine ⟨by simpa using b1, ?_⟩
        rw [b2, a2]; simp [Nat.add_assoc]

/-- Writing packets ends as soon as the sink stops failing and takes bytes. -/
theorem putAll_succeeds (fuel : Nat) (ps : List Packet) (s : Sink) (hs : ∀ c, (s.script c).fail = none ∧ 0 < (s.script c).len)
    (hf : ∀ p ∈ ps, p.data.length < fuel) : ∃ s', putAll sinkWrite fuel s ps = .ok (.ok (), s') := by
  induction ps generalizing s with
  | nil => exact ⟨s, rfl⟩
  | cons p ps ih =>
    simp only [putAll]
    rcases c59_put fuel s p 0 with ⟨_, h2⟩ | ⟨x, s1, h1, h0, _, h3⟩
    · exact absurd ⟨fun c _ => (hs c).1, by have := hf p (by simp); omega⟩ h2
    · rw [h1]
      cases x with
      | error e =>
        obtain ⟨_, _, c, h4 | h4⟩ := h3 e rfl
        · rw [(hs c).1] at h4; cases h4
        · have := (hs c).2; omega
      | ok u => exact ih s1 (by rw [h0]; exact hs) (fun p hp => hf p (by simp [hp]))

/-- **C59.** Packets written to the end of a sink, whatever the short writes and interruptions, are read back by their
lengths, whatever the short reads and interruptions. -/
theorem c59_roundtrip {R : Type} (rd : Reader R) (hb : rd.bounded) (hf : ∀ e, rd.fails e → e = .interrupted)
    (ps : List Packet) (fuelw fuel : Nat) (s s' : Sink) (hend : s.pos = s.data.length)
    (hput : putAll sinkWrite fuelw s ps = .ok (.ok (), s'))
    (r : R) (hi : rd.Inv r) (rest : List U8) (hr : rd.rem r = s'.data.drop s.pos ++ rest)
    (hn : ∀ p ∈ ps, p.data.length + rd.budget r < fuel) :
    s'.data = s.data ++ (ps.map (·.data)).flatten ∧
    ∃ r', getAll rd.read fuel r (ps.map (·.data.length)) = .ok (.ok (ps.map (bare ·.data)), r') ∧ rd.rem r' = rest := by
  have h1 := (putAll_spec fuelw ps s s' hput).1
  rw [hend, overwrite_end] at h1
  refine ⟨h1, ?_⟩
  rw [h1, hend, List.drop_left] at hr
  clear hput h1
  induction ps generalizing r with
  | nil => exact ⟨r, rfl, by simpa using hr⟩
  | cons p ps ih =>
    simp only [List.map_cons, getAll]
    have hz : (zeroed p.data.length).data.length = p.data.length := by simp [zeroed]
    rcases readExact_reader rd fuel r p.data.length hi with ⟨_, h2⟩ | ⟨x, r', g1, g2, g5, g3, g4⟩
    · exact absurd ⟨hb, hn p (by simp)⟩ h2
    · cases x with
      | error e =>
        rcases g4 e rfl with ⟨_, a2, _⟩ | ⟨a1, a2, _⟩
        · rw [hr] at a2; simp at a2; omega
        · exact absurd (hf e a1) a2
      | ok l =>
        obtain ⟨a1, a2⟩ := g3 l rfl
        rw [hr, List.map_cons, List.flatten_cons, List.append_assoc] at a2
        obtain ⟨e1, e2⟩ := List.append_inj a2 a1.symm
        subst e1
        simp only [getPacket, hz, g1, ok_bind]
        obtain ⟨r2, i1, i2⟩ := ih r' g2 e2.symm (fun q hq => by
          have := hn q (by simp [hq]); have := g5 hb; omega)
        exact ⟨r2, by rw [i1]; rfl, i2⟩

/-- An interrupted, short writing and reading wire. -/
def wire : Nat → Act := fun c => ⟨if c = 1 then some .interrupted else none, if c % 2 = 0 then 1 else 2⟩

example : (match putAll sinkWrite 9 ⟨[7], 1, wire, 0, 0⟩ [bare [1, 2, 3], bare [], bare [4, 5]] with
    | .ok (.ok (), s) => decide (s.data = [7, 1, 2, 3, 4, 5] ∧
        (match getAll (sourceReader wire 2).read 9 ⟨s.data, 1, wire, 0⟩ [3, 0, 2] with
          | .ok (.ok ps, _) => decide (ps = [bare [1, 2, 3], bare [], bare [4, 5]])
          | _ => false) = true)
    | _ => false) = true := by decide

example : QuietFrom wire 2 ∧ ∀ e, (sourceReader wire 2).fails e → e = .interrupted := by
  refine ⟨fun c hc => by simp [wire]; omega, ?_⟩
  rintro e ⟨c, hc⟩
  simp only [wire] at hc
  split at hc <;> simp_all

end Verif.Packet
