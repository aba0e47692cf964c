import Verif.Codec.Model

/-!
# Properties C41 and C42
-/

namespace Verif.Codec
open Verif Verif.Frame Verif.Packet Verif.Stream Verif.Value

/-! ### C41 -/

theorem get_entryPush {α : Type} (m : List (String × List α)) (k k' : String) (v : α) :
    mapGet (entryPush m k v) k' = if k = k' then some ((mapGet m k).getD [] ++ [v]) else mapGet m k' := by
  induction m with
  | nil =>
    by_cases h : k = k'
    · subst h; simp [entryPush, mapGet]
    · simp [entryPush, mapGet, h]
  | cons e m ih =>
    obtain ⟨k0, l⟩ := e
    by_cases h0 : k0 = k
    · subst h0
      by_cases h : k0 = k'
      · subst h; simp [entryPush, mapGet]
      · simp [entryPush, mapGet, h]
    · by_cases h1 : k0 = k'
      · subst h1
        simp [entryPush, mapGet, h0, show ¬ k = k0 from fun h => h0 h.symm]
      · have := ih
        simp only [mapGet] at this
        simp only [entryPush, mapGet, List.find?_cons, beq_eq_false_iff_ne.2 h1, beq_eq_false_iff_ne.2 h0,
          Bool.false_eq_true, if_false]
        exact this

/-- What the map holds: under each name the descriptors of that codec, in order; no empty entries. -/
theorem get_appends {T : Type} (descs : List (Descriptor T)) (n : String) :
    mapGet (descs.foldl Codecs.append Codecs.new).list n =
      (match descs.filter (fun d => d.describe.codec == n) with
      | [] => none
      | l => some l) := by
  suffices h : ∀ (l : List (Descriptor T)), mapGet (l.reverse.foldl Codecs.append Codecs.new).list n =
      (match l.reverse.filter (fun d => d.describe.codec == n) with
      | [] => none
      | l => some l) by simpa using h descs.reverse
  intro l
  induction l with
  | nil => rfl
  | cons d l ih =>
    rw [List.reverse_cons, List.foldl_append]
    simp only [List.foldl_cons, List.foldl_nil, Codecs.append, get_entryPush]
    rw [List.filter_append]
    by_cases h : d.describe.codec = n
    · subst h
      rw [if_pos rfl, ih]
      generalize l.reverse.filter (fun e => e.describe.codec == d.describe.codec) = f
      cases f <;> simp
    · rw [if_neg h, ih]
      simp [h]

/-- C41. After any sequence of `append` calls (`from_list` is one), `by_name(n)` returns the first appended
descriptor whose codec name is `n`, and none exactly if there is none; it never panics. -/
theorem c41_registry {T : Type} (descs : List (Descriptor T)) (n : String) :
    ∃ r, (Codecs.fromList descs).byName n = .ok r ∧
      (∀ d, r = some d ↔ ∃ i : Nat, descs[i]? = some d ∧ d.describe.codec = n ∧
        ∀ (j : Nat) e, j < i → descs[j]? = some e → e.describe.codec ≠ n) ∧
      (r = none ↔ ∀ d ∈ descs, d.describe.codec ≠ n) := by
  refine ⟨descs.find? (fun d => d.describe.codec == n), ?_, ?_, by simp⟩
  · unfold Codecs.byName Codecs.fromList
    rw [get_appends, ← List.head?_filter]
    generalize descs.filter (fun d => d.describe.codec == n) = f
    cases f with
    | nil => rfl
    | cons d l => simp [idx]
  · intro d
    rw [List.find?_eq_some_iff_getElem]
    constructor
    · rintro ⟨h1, i, hi, h2, h3⟩
      refine ⟨i, by rw [List.getElem?_eq_getElem hi, h2], by simpa using h1, ?_⟩
      intro j e hj he
      rw [List.getElem?_eq_getElem (by omega)] at he
      cases he
      simpa using h3 j hj
    · rintro ⟨i, h1, h2, h3⟩
      obtain ⟨hi, h1⟩ := List.getElem?_eq_some_iff.1 h1
      refine ⟨by simpa using h2, i, hi, h1, ?_⟩
      intro j hj
      have := h3 j (descs[j]'(by omega)) hj (List.getElem?_eq_getElem _)
      simpa using this

def sampleCodecs : List (Descriptor Nat) :=
  [("vp9", 1), ("opus", 2), ("vp9", 3), ("av1", 4)].map fun (n, k) => ⟨k, ⟨n, n, "", ""⟩⟩

example : (match (Codecs.fromList sampleCodecs).byName "vp9", (Codecs.fromList sampleCodecs).byName "av1",
      (Codecs.fromList sampleCodecs).byName "h264" with
    | .ok (some d), .ok (some e), .ok none => decide (d.create = 1 ∧ e.create = 4)
    | _, _, _ => false) = true := by decide

/-! ### C42: decoders -/

variable {D E : Type}

/-- One call of the decoder object itself. -/
inductive DecCall (dc : Decoder D) (d : D) : DecOp → DecOut → D → Prop
  | extradata {l d'} : dc.setExtradata d l = .ok d' → DecCall dc d (.extradata l) .none d'
  | send {p x d'} : dc.sendPacket d p = .ok (x, d') → DecCall dc d (.send p) (.unit x) d'
  | receive {x d'} : dc.receiveFrame d = .ok (x, d') → DecCall dc d .receive (.frame x) d'
  | configure {x d'} : dc.configure d = .ok (x, d') → DecCall dc d .configure (.unit x) d'
  | flush {x d'} : dc.flush d = .ok (x, d') → DecCall dc d .flush (.unit x) d'

inductive DecCalls (dc : Decoder D) : D → List DecOp → List DecOut → D → Prop
  | nil {d} : DecCalls dc d [] [] d
  | cons {d op x d1 ops xs d2} : DecCall dc d op x d1 → DecCalls dc d1 ops xs d2 →
      DecCalls dc d (op :: ops) (x :: xs) d2

theorem dec_step_iff (dc : Decoder D) (c c' : DecContext D) (op : DecOp) (x : DecOut) :
    c.step dc op = .ok (x, c') ↔ DecCall dc c.dec op x c'.dec := by
  obtain ⟨d⟩ := c
  obtain ⟨d'⟩ := c'
  constructor
  · intro h
    cases op with
    | extradata l =>
      simp only [DecContext.step, DecContext.setExtradata] at h
      cases h1 : dc.setExtradata d l with
      | error e => rw [h1] at h; cases h
      | ok v => rw [h1] at h; cases h; exact .extradata h1
    | send p =>
      simp only [DecContext.step, DecContext.sendPacket] at h
      cases h1 : dc.sendPacket d p with
      | error e => rw [h1] at h; cases h
      | ok v => rw [h1] at h; cases h; exact .send h1
    | receive =>
      simp only [DecContext.step, DecContext.receiveFrame] at h
      cases h1 : dc.receiveFrame d with
      | error e => rw [h1] at h; cases h
      | ok v => rw [h1] at h; cases h; exact .receive h1
    | configure =>
      simp only [DecContext.step, DecContext.configure] at h
      cases h1 : dc.configure d with
      | error e => rw [h1] at h; cases h
      | ok v => rw [h1] at h; cases h; exact .configure h1
    | flush =>
      simp only [DecContext.step, DecContext.flush] at h
      cases h1 : dc.flush d with
      | error e => rw [h1] at h; cases h
      | ok v => rw [h1] at h; cases h; exact .flush h1
  · intro h
    cases h with
    | extradata h => simp only at h; simp [DecContext.step, DecContext.setExtradata, h]
    | send h => simp only at h; simp [DecContext.step, DecContext.sendPacket, h]
    | receive h => simp only at h; simp [DecContext.step, DecContext.receiveFrame, h]
    | configure h => simp only at h; simp [DecContext.step, DecContext.configure, h]
    | flush h => simp only at h; simp [DecContext.step, DecContext.flush, h]

theorem dec_run_iff (dc : Decoder D) (c c' : DecContext D) (ops : List DecOp) (xs : List DecOut) :
    c.run dc ops = .ok (xs, c') ↔ DecCalls dc c.dec ops xs c'.dec := by
  induction ops generalizing c xs with
  | nil =>
    obtain ⟨d⟩ := c
    obtain ⟨d'⟩ := c'
    simp only [DecContext.run]
    constructor
    · intro h; cases h; exact .nil
    · intro h; cases h; rfl
  | cons op ops ih =>
    simp only [DecContext.run]
    constructor
    · intro h
      cases h1 : c.step dc op with
      | error e => rw [h1] at h; cases h
      | ok v =>
        obtain ⟨x, c1⟩ := v
        simp only [h1, ok_bind] at h
        cases h2 : c1.run dc ops with
        | error e => rw [h2] at h; cases h
        | ok v =>
          obtain ⟨ys, c2⟩ := v
          simp only [h2, ok_bind, pure_eq_ok] at h
          cases h
          exact .cons ((dec_step_iff _ _ _ _ _).1 h1) ((ih _ _).1 h2)
    · intro h
      cases h with
      | @cons _ _ x d1 _ xs _ a b =>
        have h1 : c.step dc op = .ok (x, ⟨d1⟩) := (dec_step_iff _ _ _ _ _).2 a
        have h2 := (ih ⟨d1⟩ xs).2 b
        simp only [h1, ok_bind, h2, pure_eq_ok]

/-- C42 for decoders. `Context::by_name` is none exactly if no descriptor has that codec name; otherwise it
holds a new object of the first such descriptor, and any history of calls on the context returns what the
same calls on that object return. -/
theorem c42_decoder (dc : Decoder D) (descs : List (Descriptor D)) (name : String) :
    ∃ r, DecContext.byName (Codecs.fromList descs) name = .ok r ∧
      (r = none ↔ ∀ d ∈ descs, d.describe.codec ≠ name) ∧
      ∀ c, r = some c → ∃ (i : Nat) (d : Descriptor D), descs[i]? = some d ∧ d.describe.codec = name ∧
        (∀ (j : Nat) e, j < i → descs[j]? = some e → e.describe.codec ≠ name) ∧
        ∀ ops xs c', c.run dc ops = .ok (xs, c') ↔ DecCalls dc d.create ops xs c'.decoder := by
  obtain ⟨r, h1, h2, h3⟩ := c41_registry descs name
  refine ⟨r.map fun d => ⟨d.create⟩, by simp [DecContext.byName, h1], by simpa using h3, ?_⟩
  intro c hc
  cases r with
  | none => cases hc
  | some d =>
    cases hc
    obtain ⟨i, a1, a2, a3⟩ := (h2 d).1 rfl
    exact ⟨i, d, a1, a2, a3, fun ops xs c' => dec_run_iff dc _ c' ops xs⟩

/-- A decoder counting its calls. -/
def countDecoder : Decoder Nat where
  setExtradata d l := .ok (d + l.length)
  sendPacket d p := .ok (if p.data.length = 0 then .error .MoreDataNeeded else .ok (), d + 10)
  receiveFrame d := .ok (.error .InvalidData, d + 100)
  configure d := .ok (.ok (), d + 1000)
  flush _ := .ok (.ok (), 0)

example : (match DecContext.byName (Codecs.fromList sampleCodecs) "opus" with
    | .ok (some c) => (match c.run countDecoder [.configure, .extradata [1, 2], .send Packet.new, .receive] with
      | .ok (_, c') => decide (c'.decoder = 1114)
      | _ => false)
    | _ => false) = true := by decide

/-! ### C42: encoders -/

/-- One call of the encoder object itself. -/
inductive EncCall (ec : Encoder E) (d : E) : EncOp → EncOut → E → Prop
  | configure {x d'} : ec.configure d = .ok (x, d') → EncCall ec d .configure (.unit x) d'
  | setParams {p x d'} : ec.setParams d p = .ok (x, d') → EncCall ec d (.setParams p) (.unit x) d'
  | getParams {x} : ec.getParams d = .ok x → EncCall ec d .getParams (.params x) d
  | option {k v x d'} : ec.setOption d k v.into = .ok (x, d') → EncCall ec d (.option k v) (.unit x) d'
  | extradata {x} : ec.getExtradata d = .ok x → EncCall ec d .extradata (.extradata x) d
  | send {f x d'} : ec.sendFrame d f = .ok (x, d') → EncCall ec d (.send f) (.unit x) d'
  | receive {x d'} : ec.receivePacket d = .ok (x, d') → EncCall ec d .receive (.packet x) d'
  | flush {x d'} : ec.flush d = .ok (x, d') → EncCall ec d .flush (.unit x) d'

inductive EncCalls (ec : Encoder E) : E → List EncOp → List EncOut → E → Prop
  | nil {d} : EncCalls ec d [] [] d
  | cons {d op x d1 ops xs d2} : EncCall ec d op x d1 → EncCalls ec d1 ops xs d2 →
      EncCalls ec d (op :: ops) (x :: xs) d2

theorem enc_step_iff (ec : Encoder E) (c c' : EncContext E) (op : EncOp) (x : EncOut) :
    c.step ec op = .ok (x, c') ↔ EncCall ec c.enc op x c'.enc := by
  obtain ⟨d⟩ := c
  obtain ⟨d'⟩ := c'
  constructor
  · intro h
    cases op with
    | configure =>
      simp only [EncContext.step, EncContext.configure] at h
      cases h1 : ec.configure d with
      | error e => rw [h1] at h; cases h
      | ok v => rw [h1] at h; cases h; exact .configure h1
    | setParams p =>
      simp only [EncContext.step, EncContext.setParams] at h
      cases h1 : ec.setParams d p with
      | error e => rw [h1] at h; cases h
      | ok v => rw [h1] at h; cases h; exact .setParams h1
    | getParams =>
      simp only [EncContext.step, EncContext.getParams] at h
      cases h1 : ec.getParams d with
      | error e => rw [h1] at h; cases h
      | ok v => rw [h1] at h; cases h; exact .getParams h1
    | option k v =>
      simp only [EncContext.step, EncContext.setOption] at h
      cases h1 : ec.setOption d k v.into with
      | error e => rw [h1] at h; cases h
      | ok v => rw [h1] at h; cases h; exact .option h1
    | extradata =>
      simp only [EncContext.step, EncContext.getExtradata] at h
      cases h1 : ec.getExtradata d with
      | error e => rw [h1] at h; cases h
      | ok v => rw [h1] at h; cases h; exact .extradata h1
    | send f =>
      simp only [EncContext.step, EncContext.sendFrame] at h
      cases h1 : ec.sendFrame d f with
      | error e => rw [h1] at h; cases h
      | ok v => rw [h1] at h; cases h; exact .send h1
    | receive =>
      simp only [EncContext.step, EncContext.receivePacket] at h
      cases h1 : ec.receivePacket d with
      | error e => rw [h1] at h; cases h
      | ok v => rw [h1] at h; cases h; exact .receive h1
    | flush =>
      simp only [EncContext.step, EncContext.flush] at h
      cases h1 : ec.flush d with
      | error e => rw [h1] at h; cases h
      | ok v => rw [h1] at h; cases h; exact .flush h1
  · intro h
    generalize hd : (EncContext.mk d').enc = e at h
    cases h with
    | configure h => simp only at h hd; subst hd; simp [EncContext.step, EncContext.configure, h]
    | setParams h => simp only at h hd; subst hd; simp [EncContext.step, EncContext.setParams, h]
    | getParams h => simp only at h hd; subst hd; simp [EncContext.step, EncContext.getParams, h]
    | option h => simp only at h hd; subst hd; simp [EncContext.step, EncContext.setOption, h]
    | extradata h => simp only at h hd; subst hd; simp [EncContext.step, EncContext.getExtradata, h]
    | send h => simp only at h hd; subst hd; simp [EncContext.step, EncContext.sendFrame, h]
    | receive h => simp only at h hd; subst hd; simp [EncContext.step, EncContext.receivePacket, h]
    | flush h => simp only at h hd; subst hd; simp [EncContext.step, EncContext.flush, h]

theorem enc_run_iff (ec : Encoder E) (c c' : EncContext E) (ops : List EncOp) (xs : List EncOut) :
    c.run ec ops = .ok (xs, c') ↔ EncCalls ec c.enc ops xs c'.enc := by
  induction ops generalizing c xs with
  | nil =>
    obtain ⟨d⟩ := c
    obtain ⟨d'⟩ := c'
    simp only [EncContext.run]
    constructor
    · intro h; cases h; exact .nil
    · intro h; cases h; rfl
  | cons op ops ih =>
    simp only [EncContext.run]
    constructor
    · intro h
      cases h1 : c.step ec op with
      | error e => rw [h1] at h; cases h
      | ok v =>
        obtain ⟨x, c1⟩ := v
        simp only [h1, ok_bind] at h
        cases h2 : c1.run ec ops with
        | error e => rw [h2] at h; cases h
        | ok v =>
          obtain ⟨ys, c2⟩ := v
          simp only [h2, ok_bind, pure_eq_ok] at h
          cases h
          exact .cons ((enc_step_iff _ _ _ _ _).1 h1) ((ih _ _).1 h2)
    · intro h
      cases h with
      | @cons _ _ x d1 _ xs _ a b =>
        have h1 : c.step ec op = .ok (x, ⟨d1⟩) := (enc_step_iff _ _ _ _ _).2 a
        have h2 := (ih ⟨d1⟩ xs).2 b
        simp only [h1, ok_bind, h2, pure_eq_ok]

/-- C42 for encoders. -/
theorem c42_encoder (ec : Encoder E) (descs : List (Descriptor E)) (name : String) :
    ∃ r, EncContext.byName (Codecs.fromList descs) name = .ok r ∧
      (r = none ↔ ∀ d ∈ descs, d.describe.codec ≠ name) ∧
      ∀ c, r = some c → ∃ (i : Nat) (d : Descriptor E), descs[i]? = some d ∧ d.describe.codec = name ∧
        (∀ (j : Nat) e, j < i → descs[j]? = some e → e.describe.codec ≠ name) ∧
        ∀ ops xs c', c.run ec ops = .ok (xs, c') ↔ EncCalls ec d.create ops xs c'.encoder := by
  obtain ⟨r, h1, h2, h3⟩ := c41_registry descs name
  refine ⟨r.map fun d => ⟨d.create⟩, by simp [EncContext.byName, h1], by simpa using h3, ?_⟩
  intro c hc
  cases r with
  | none => cases hc
  | some d =>
    cases hc
    obtain ⟨i, a1, a2, a3⟩ := (h2 d).1 rfl
    exact ⟨i, d, a1, a2, a3, fun ops xs c' => enc_run_iff ec _ c' ops xs⟩

/-- An encoder counting its calls. -/
def countEncoder : Encoder Nat where
  getExtradata d := .ok (if d = 0 then none else some [BitVec.ofNat 8 d])
  sendFrame d _ := .ok (.ok (), d + 1)
  receivePacket d := .ok (.ok { Packet.new with data := [BitVec.ofNat 8 d] }, d + 10)
  flush _ := .ok (.ok (), 0)
  configure d := .ok (.error .ConfigurationIncomplete, d + 100)
  setOption d k _ := .ok (.error (.Unsupported k), d + 1000)
  setParams d _ := .ok (.ok (), d + 10000)
  getParams _ := .ok (.error .ConfigurationInvalid)

example : (match EncContext.byName (Codecs.fromList sampleCodecs) "vp9" with
    | .ok (some c) => (match c.run countEncoder [.configure, .option "w" (.u64 5), .receive, .extradata, .getParams] with
      | .ok (_, c') => decide (c'.encoder = 1111)
      | _ => false)
    | _ => false) = true := by decide

end Verif.Codec
