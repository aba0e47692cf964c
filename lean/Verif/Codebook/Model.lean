import Verif.BitRead.Model

/-!
# Model of `bitstream/src/codebook.rs`

`u32` values (codes, table entries) are naturals; every operation that can exceed 32 bits is
truncated or checked as in Rust. `u8` lengths and `usize` positions are naturals as well (lengths never
grow; positions are bounded by the table length).

`HashMap<u32, CodeBucket>` is an association list. The order in which a map is iterated is given by an
`Order` oracle: it may depend on the map (named by the path of keys leading to it), on the contents and
on which of the two iterations it is.

The `CodebookDescReader` implementations for vectors and slices (codebook.rs:408-478) are lists of `Desc`;
for `ShortCodebookDesc` the symbol is the position (`shortDescs`). `TableCodebookDescReader`
(codebook.rs:480-509) has private fields and no constructor, so callers of the crate cannot make one; it is
modelled, with the reader interface itself, in `Verif.Codebook.Descs`.
-/

namespace Verif.Codebook
open Verif Verif.BitRead

/-- codebook.rs:14-21 -/
inductive CodebookError | invalidCodebook | invalidCode
  deriving DecidableEq, Repr

/-- codebook.rs:25-32 (the text written) -/
def CodebookError.display : CodebookError → String
  | invalidCodebook => "Invalid Codebook"
  | invalidCode => "Invalid Code"

/-- codebook.rs:36-44 -/
inductive Mode | msb | lsb
  deriving DecidableEq, Repr

/-- codebook.rs:46-54 (`FullCodebookDesc`: `code: u32`, `bits: u8`, `sym: S`) -/
structure Desc (S : Type u) where
  code : Nat
  bits : Nat
  sym : S
  deriving DecidableEq, Repr

/-- codebook.rs:56-63 with 426-442, 462-478: the symbol of a `ShortCodebookDesc` is its index, as `u32` -/
def shortDescs (l : List (Nat × Nat)) : List (Desc Nat) :=
  l.mapIdx fun i cb => { code := cb.1, bits := cb.2, sym := i % 2 ^ 32 }

/-- codebook.rs:81-87 -/
structure Codebook (S : Type u) where
  table : List Nat
  syms : List S
  lutBits : Nat
  deriving DecidableEq, Repr

/-- `x << n` on `u32`: the amount is checked, the result truncated (codebook.rs:105, 125-127, 149-158, 180, 190-198, 324). -/
def shl32 (x n : Nat) : Rust Nat := if n < 32 then .ok ((x <<< n) % 2 ^ 32) else .error .shift

/-- `x >> n` on `u32` (codebook.rs:106, 190, 198, 392). -/
def shr32 (x n : Nat) : Rust Nat := if n < 32 then .ok (x >>> n) else .error .shift

/-- `x + y` on `u32` (codebook.rs:127-158). -/
def add32 (x y : Nat) : Rust Nat := if x + y < 2 ^ 32 then .ok (x + y) else .error .overflow

/-- `table[i] = v` (codebook.rs:130, 134, 154, 158) -/
def setIdx (l : List Nat) (i v : Nat) : Rust (List Nat) :=
  if i < l.length then .ok (l.set i v) else .error .index

/-- codebook.rs:95-109: the table of reversed nibbles -/
def revTab : List Nat :=
  [0b0000, 0b1000, 0b0100, 0b1100, 0b0010, 0b1010, 0b0110, 0b1110,
   0b0001, 0b1001, 0b0101, 0b1101, 0b0011, 0b1011, 0b0111, 0b1111]

/-- codebook.rs:102-108: the loop, `k` iterations left -/
def reverseLoop : Nat → BitVec 32 → BitVec 32 → Rust (BitVec 32)
  | 0, ret, _ => .ok ret
  | k + 1, ret, val => do
    let t ← idx revTab (val &&& 0xF).toNat
    reverseLoop k ((ret <<< 4) ||| BitVec.ofNat 32 t) (val >>> 4)

/-- codebook.rs:96-109 -/
def reverse_bits (inval : BitVec 32) : Rust (BitVec 32) := reverseLoop 8 0 inval

/-- codebook.rs:111 -/
def FILL : Nat := 0x7F

/-- codebook.rs:112 -/
def MAX_LUT_BITS : Nat := 10

/-- codebook.rs:127, 154: `(symidx << 8) | u32::from(bits)` -/
def leafVal (symidx bits : Nat) : Nat := (symidx <<< 8) % 2 ^ 32 ||| bits

/-- codebook.rs:134, 158: `(symidx << 8) | 0x80 | u32::from(bits)` -/
def escVal (symidx bits : Nat) : Nat := (symidx <<< 8) % 2 ^ 32 ||| 0x80 ||| bits

/-- codebook.rs:114-136 -/
def fillLutMsb (table : List Nat) (off code bits lutBits symidx : Nat) (esc : Bool) :
    Rust (List Nat) :=
  if !esc then do
    let fillLen ← usub lutBits bits
    let fillSize ← shl32 1 fillLen
    let fillCode ← shl32 code fillLen
    (List.range fillSize).foldlM (init := table) fun t j => do
      let i ← add32 fillCode j
      setIdx t (i + off) (leafVal symidx bits)
  else setIdx table (code + off) (escVal symidx bits)

/-- codebook.rs:138-160 -/
def fillLutLsb (table : List Nat) (off code bits lutBits symidx : Nat) (esc : Bool) :
    Rust (List Nat) :=
  if !esc then do
    let fillLen ← usub lutBits bits
    let fillSize ← shl32 1 fillLen
    let fillCode := code
    let step ← usub lutBits fillLen
    (List.range fillSize).foldlM (init := table) fun t j => do
      let s ← shl32 j step
      let i ← add32 fillCode s
      setIdx t (i + off) (leafVal symidx bits)
  else setIdx table (code + off) (escVal symidx bits)

/-- codebook.rs:162-177 (the returned `bool` is ignored by all callers and omitted) -/
def fillLut (m : Mode) (table : List Nat) (off code bits lutBits symidx : Nat) (esc : Bool) :
    Rust (List Nat) :=
  match m with
  | .msb => fillLutMsb table off code bits lutBits symidx esc
  | .lsb => fillLutLsb table off code bits lutBits symidx esc

/-- codebook.rs:179-186: the new table and the offset of the new part, as `u32` -/
def resizeTable (table : List Nat) (bits : Nat) : Rust (List Nat × Nat) := do
  let add ← shl32 1 bits
  return (table ++ List.replicate add FILL, table.length % 2 ^ 32)

/-- codebook.rs:188-193 -/
def extractLutPart (code bits lutBits : Nat) (m : Mode) : Rust Nat :=
  match m with
  | .msb => do shr32 code (← usub bits lutBits)
  | .lsb => do return code &&& ((← shl32 1 lutBits) - 1)

/-- codebook.rs:195-200 -/
def extractEscPart (code bits lutBits : Nat) (m : Mode) : Rust Nat :=
  match m with
  | .msb => do return code &&& ((← shl32 1 (← usub bits lutBits)) - 1)
  | .lsb => shr32 code lutBits

/-- codebook.rs:202-207 -/
structure Code where
  code : Nat
  bits : Nat
  idx : Nat
  deriving DecidableEq, Repr

/-- codebook.rs:209-213 -/
structure CodeBucket where
  maxlen : Nat
  offset : Nat
  codes : List Code
  deriving DecidableEq, Repr

/-- codebook.rs:216-222 -/
def CodeBucket.new : CodeBucket := { maxlen := 0, offset := 0, codes := [] }

/-- codebook.rs:223-228 -/
def CodeBucket.addCode (b : CodeBucket) (c : Code) : CodeBucket :=
  { b with maxlen := if c.bits > b.maxlen then c.bits else b.maxlen, codes := b.codes ++ [c] }

/-- codebook.rs:231 -/
abbrev EscapeCodes := List (Nat × CodeBucket)

/-- codebook.rs:233-236: `entry(key).or_insert_with(CodeBucket::new)`, then `add_code` -/
def addEscCode (cc : EscapeCodes) (key code bits idx : Nat) : EscapeCodes :=
  match cc with
  | [] => [(key, CodeBucket.new.addCode { code, bits, idx })]
  | (k, b) :: rest =>
    if k = key then (k, b.addCode { code, bits, idx }) :: rest
    else (k, b) :: addEscCode rest key code bits idx

/-- Iteration orders: which permutation a map, named by its path, is iterated in; the number tells the
first iteration (266) from the second (284, 362) (codebook.rs:267, 284, 362). -/
abbrev Order := List Nat → Nat → EscapeCodes → EscapeCodes

/-- codebook.rs:269-281 (in `build_esc_lut`) and 343-355 (in `Codebook::new`, where `off` is 0): gives
the bucket a new part of the table and stores the escape to it. -/
def allocBucket (m : Mode) (table : List Nat) (off key : Nat) (b : CodeBucket) :
    Rust (List Nat × CodeBucket) := do
  let maxlen := min b.maxlen MAX_LUT_BITS
  let (table, newOff) ← resizeTable table maxlen
  let table ← fillLut m table off key maxlen MAX_LUT_BITS newOff true
  return (table, { b with offset := newOff })

/-- codebook.rs:246-264: body of the first loop of `build_esc_lut` -/
def escStep (m : Mode) (off maxlen : Nat) (st : List Nat × EscapeCodes) (c : Code) :
    Rust (List Nat × EscapeCodes) :=
  if c.bits ≤ MAX_LUT_BITS then do
    let table ← fillLut m st.1 off c.code c.bits maxlen (c.idx % 2 ^ 32) false
    return (table, st.2)
  else do
    let ckey ← extractLutPart c.code c.bits MAX_LUT_BITS m
    let cval ← extractEscPart c.code c.bits MAX_LUT_BITS m
    return (st.1, addEscCode st.2 ckey cval (c.bits - MAX_LUT_BITS) c.idx)

/-- codebook.rs:267-282: body of the second loop of `build_esc_lut` -/
def allocStep (m : Mode) (off : Nat) (st : List Nat × EscapeCodes) (kb : Nat × CodeBucket) :
    Rust (List Nat × EscapeCodes) := do
  let (table, b) ← allocBucket m st.1 off kb.1 kb.2
  return (table, st.2 ++ [(kb.1, b)])

/-- codebook.rs:238-289. It only ever returns `Ok(())`, so the result is just the table. The recursion
is bounded by the code lengths (`u8`, less 10 at each level), so a budget of 26 is never used up. -/
def buildEscLut (ord : Order) (m : Mode) :
    Nat → List Nat → List Nat → CodeBucket → Rust (List Nat)
  | 0, _, _, _ => .error .fuel
  | fuel + 1, path, table, bucket => do
    let maxlen := min bucket.maxlen MAX_LUT_BITS
    let (table, esc) ← bucket.codes.foldlM (escStep m bucket.offset maxlen) (table, [])
    let (table, esc) ← (ord path 0 esc).foldlM (allocStep m bucket.offset) (table, [])
    (ord path 1 esc).foldlM
      (fun t kb => buildEscLut ord m fuel (path ++ [kb.1]) t kb.2) table

/-- State of the first loop of `Codebook::new` (codebook.rs:295-315). -/
structure Gather where
  maxbits : Nat
  esc : EscapeCodes
  symidx : Nat

/-- codebook.rs:300-315: body of the first loop of `Codebook::new` (`nnz` is only a capacity hint) -/
def gatherStep (m : Mode) (st : Gather) (d : Desc S) : Rust Gather := do
  let maxbits := max d.bits st.maxbits
  let esc ← (if d.bits > MAX_LUT_BITS then do
      let ckey ← extractLutPart d.code d.bits MAX_LUT_BITS m
      let cval ← extractEscPart d.code d.bits MAX_LUT_BITS m
      return addEscCode st.esc ckey cval (d.bits - MAX_LUT_BITS) st.symidx
    else .ok st.esc)
  return { maxbits, esc, symidx := if d.bits > 0 then st.symidx + 1 else st.symidx }

/-- State of the second loop of `Codebook::new` (codebook.rs:325-360). -/
structure Fill where
  table : List Nat
  esc : EscapeCodes
  symidx : Nat

/-- `escape_list.get(&key)` (codebook.rs:342) -/
def EscapeCodes.get (esc : EscapeCodes) (key : Nat) : Option CodeBucket :=
  match esc with
  | [] => none
  | (k, b) :: rest => if k = key then some b else EscapeCodes.get rest key

/-- write through `escape_list.get_mut(&key)` (codebook.rs:342) -/
def EscapeCodes.put (esc : EscapeCodes) (key : Nat) (b : CodeBucket) : EscapeCodes :=
  match esc with
  | [] => []
  | (k, c) :: rest => if k = key then (k, b) :: rest else (k, c) :: EscapeCodes.put rest key b

/-- codebook.rs:330-360: body of the second loop of `Codebook::new` -/
def fillStep (m : Mode) (maxbits : Nat) (st : Fill) (d : Desc S) : Rust Fill :=
  if d.bits = 0 then .ok st
  else do
    let (table, esc) ← (if d.bits ≤ MAX_LUT_BITS then do
        let table ← fillLut m st.table 0 d.code d.bits maxbits st.symidx false
        return (table, st.esc)
      else do
        let ckey ← extractLutPart d.code d.bits MAX_LUT_BITS m
        let ent ← idx st.table ckey
        if ent = FILL then
          match st.esc.get ckey with
          | some b => do
            let (table, b) ← allocBucket m st.table 0 ckey b
            return (table, st.esc.put ckey b)
          | none => .ok (st.table, st.esc)
        else .ok (st.table, st.esc))
    let symidx ← add32 st.symidx 1
    return { table, esc, symidx }

/-- codebook.rs:291-378 -/
def new (ord : Order) (m : Mode) (cb : List (Desc S)) :
    Rust (Except CodebookError (Codebook S)) := do
  let g ← cb.foldlM (gatherStep m) { maxbits := 0, esc := [], symidx := 0 }
  if g.maxbits = 0 then .ok (.error .invalidCodebook)
  else do
    let maxbits := if g.maxbits > MAX_LUT_BITS then MAX_LUT_BITS else g.maxbits
    let f ← cb.foldlM (fillStep m maxbits)
      { table := List.replicate (1 <<< maxbits) FILL, esc := g.esc, symidx := 0 }
    let table ← (ord [] 1 f.esc).foldlM
      (fun t kb => buildEscLut ord m 26 [kb.1] t kb.2) f.table
    return .ok {
      table, lutBits := maxbits,
      syms := (cb.filter (fun d => decide (d.bits > 0))).map (·.sym) }

/-- codebook.rs:385-403: the loop of `read_cb`, for at most `fuel` rounds; the result is the index of
the symbol. `available() as u32` truncates. -/
def readLoop (e : Endian) (table : List Nat) :
    Nat → Nat → Nat → Reader → Rust (Except CodebookError Nat × Reader)
  | 0, _, _, _ => .error .fuel
  | fuel + 1, off, lutBits, r => do
    let (v, r) ← peek_bits_32 e r lutBits
    let ent ← idx table (v.toNat + off)
    if ent = FILL then .ok (.error .invalidCode, r)
    else do
      let bits := ent &&& 0x7F
      let esc := (ent &&& 0x80) != 0
      let next := ent >>> 8
      let avail ← available r
      if bits > avail % 2 ^ 32 then .ok (.error .invalidCode, r)
      else do
        let r ← skip_bits e r (if esc then lutBits else bits)
        if esc then readLoop e table fuel next bits r
        else .ok (.ok next, r)

/-- codebook.rs:380-406 -/
def readCb (e : Endian) (fuel : Nat) (cb : Codebook S) (r : Reader) :
    Rust (Except CodebookError S × Reader) := do
  let (res, r) ← readLoop e cb.table fuel 0 cb.lutBits r
  match res with
  | .ok i => do
    let s ← idx cb.syms i
    return (.ok s, r)
  | .error err => .ok (.error err, r)

end Verif.Codebook
