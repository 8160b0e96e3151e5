import Verif.Model.Basic

/-!
# Model of `src/pd_pack.c`
-/

namespace Plc.Pack

/-- `pd_signcross_t` (pd_pack.c). -/
inductive SignType where
  | unsigned
  | signed
  deriving DecidableEq, Repr

/-- `ceil(nbits/32.0)`: the division is exact in double precision for every
`unsigned int`. (pd_pack.c 84-85, 121-122) -/
def nwords (nbits : Nat) : Nat := (nbits + 31) / 32

/-- Inner loop of `pd_packbitstring` (pd_pack.c 92-104): `r` offsets remain, so
`thisofs = 32 - r`. Returns (thisbit, word, returned early?).
`SET_BIT` is `val |= (1 << bitIndex)`; `1 << 31` is taken to be the bit 2^31. -/
def packInner (intform : List Nat) (nints : Nat) : Nat → Nat → Nat → Res (Nat × Nat × Bool)
  | 0, tb, w => .ok (tb, w, false)
  | r + 1, tb, w =>
    if tb = nints then .ok (tb, w, true)
    else do
      let b ← rd intform tb
      assertC (b == 1 || b == 0)
      packInner intform nints r (tb + 1) (if b = 1 then w ||| (1 <<< (32 - (r + 1))) else w)

/-- Outer loop of `pd_packbitstring` (pd_pack.c 90-108): `r` words remain, `acc` are
the words already written; the rest of the buffer is zero (`calloc`). -/
def packOuter (intform : List Nat) (nints : Nat) : Nat → Nat → List Nat → Res (List Nat)
  | 0, _, _ => .error .die
  | r + 1, tb, acc => do
    let (tb', w, ret) ← packInner intform nints 32 tb 0
    if ret then .ok (acc ++ [w] ++ List.replicate r 0)
    else if tb' = nints then .ok (acc ++ [w] ++ List.replicate r 0)
    else packOuter intform nints r tb' (acc ++ [w])

/-- `pd_packbitstring` (pd_pack.c 79-115). `*packints` is the length of the result. -/
def packbitstring (intform : List Nat) (nints : Nat) : Res (List Nat) :=
  packOuter intform nints (nwords nints) 0 []

/-- Inner loop of `pd_unpackbitstring` (pd_pack.c 129-143) on the word `w`; `acc` is
the output written so far. `BIT_IS_SET` is `val & (1 << bitIndex)`. -/
def unpackInner (w nbits : Nat) : Nat → Nat → List Nat → Res (Nat × List Nat × Bool)
  | 0, tb, acc => .ok (tb, acc, false)
  | r + 1, tb, acc =>
    if tb = nbits then .ok (tb, acc, true)
    else
      unpackInner w nbits r (tb + 1)
        (acc ++ [if w &&& (1 <<< (32 - (r + 1))) ≠ 0 then 1 else 0])

/-- Outer loop of `pd_unpackbitstring` (pd_pack.c 127-147). -/
def unpackOuter (bitform : List Nat) (nbits : Nat) : Nat → Nat → Nat → List Nat → Res (List Nat)
  | 0, _, _, _ => .error .die
  | r + 1, ti, tb, acc =>
    if tb = nbits then .ok acc
    else do
      let w ← rd bitform ti
      let (tb', acc', ret) ← unpackInner w nbits 32 tb acc
      if ret then .ok acc'
      else if tb' = nbits then .ok acc'
      else unpackOuter bitform nbits r (ti + 1) tb' acc'

/-- `pd_unpackbitstring` (pd_pack.c 117-154). -/
def unpackbitstring (bitform : List Nat) (nbits : Nat) : Res (List Nat) :=
  unpackOuter bitform nbits (nwords nbits) 0 0 []

/-- `ceil(log2(m))` for `m ≥ 1`, computed by halving; used for `pd_indexbits`. -/
def ceilLog2 (m : Nat) : Nat :=
  if m ≤ 1 then 0 else ceilLog2 ((m + 1) / 2) + 1
termination_by m
decreasing_by omega

/-- `pd_indexbits` (pd_pack.c 58-62): `ceil(log2(2*ncrossings))`. The C function
computes it in double precision; libm's `log2` is taken to be exact on powers of two
and correctly ordered between them. For 0 crossings it is the conversion of
`-infinity`, undefined behaviour. -/
def indexbits (ncross : Nat) : Res Nat :=
  if ncross = 0 then .error .ub else .ok (ceilLog2 (2 * ncross))

/-- Bits per crossing (pd_pack.c 331, 408). -/
def crossbits (idxbits : Nat) (t : SignType) : Nat :=
  4 * (1 + idxbits) + (if t = .signed then 1 else 0)

/-- `pd_packbits` (pd_pack.c 64-70). -/
def packbits (ncross : Nat) (t : SignType) : Res Nat := do
  let ib ← indexbits ncross
  .ok (ncross * (4 + 4 * ib + (if t = .signed then 1 else 0)))

/-- Loop of `pd_idx_bitencode` (pd_pack.c 165-170). -/
def idxBits : Nat → Nat → List Nat
  | 0, _ => []
  | k + 1, i => (i % 2) :: idxBits k (i / 2)

/-- `pd_idx_bitencode` (pd_pack.c 156-178). -/
def idxBitencode (i ncross : Nat) : Res (List Nat) := do
  assertC (i < 2 * ncross)
  let ib ← indexbits ncross
  .ok (idxBits ib i)

/-- Loop of `pd_idx_bitdecode` (pd_pack.c 189-194). -/
def idxUnbits (bitcode : List Nat) : Nat → Nat → Nat → Nat → Res Nat
  | 0, _, i, _ => .ok i
  | r + 1, k, i, placeval => do
    let b ← rd bitcode k
    idxUnbits bitcode r (k + 1) (i + b * placeval) (placeval * 2)

/-- `pd_idx_bitdecode` (pd_pack.c 180-197). -/
def idxBitdecode (bitcode : List Nat) (ncross : Nat) : Res Nat := do
  let ib ← indexbits ncross
  idxUnbits bitcode ib 0 0 1

/-- One slot of `pd_crossing_bitencode` (pd_pack.c 227-236): the head bit and the
index bits of slot `k` of crossing `cr`. -/
def encodeSlot (cross : List Cross) (edge : List Edge) (cr : Nat) (c : Cross) (k : Nat) :
    Res (List Nat) := do
  let e ← c.rdPos k
  let er ← rd edge e
  let idx ← idxBitencode e cross.length
  .ok ((if er.head = cr ∧ er.headpos = k then 1 else 0) :: idx)

/-- `pd_crossing_bitencode` (pd_pack.c 199-240). The four slots follow each other
without gap, so the buffer is the concatenation. -/
def crossingBitencode (cross : List Cross) (edge : List Edge) (cr : Nat) (t : SignType) :
    Res (List Nat) := do
  let c ← rd cross cr
  let sgn ← (match t with
    | .signed => do
        assertC (c.sign != .unset)
        .ok [if c.sign = .pos then 1 else 0]
    | .unsigned => .ok [] : Res (List Nat))
  let s0 ← encodeSlot cross edge cr c 0
  let s1 ← encodeSlot cross edge cr c 1
  let s2 ← encodeSlot cross edge cr c 2
  let s3 ← encodeSlot cross edge cr c 3
  .ok (sgn ++ s0 ++ s1 ++ s2 ++ s3)

/-- Loop of `pd_pack` over the crossings (pd_pack.c 337-344): crossing `k`'s bits go to
offset `k*crossbits`, so the bit string is the concatenation. `r` crossings remain. -/
def packCrossings (cross : List Cross) (edge : List Edge) (t : SignType) : Nat → Nat → Res (List Nat)
  | 0, _ => .ok []
  | r + 1, k => do
    let b ← crossingBitencode cross edge k t
    let rest ← packCrossings cross edge t r (k + 1)
    .ok (b ++ rest)

/-- Word 0 of the packed code (pd_pack.c 350-358): `ncross`, or `-ncross` as a 32-bit
value. -/
def firstWord (ncross : Nat) : SignType → Nat
  | .unsigned => ncross
  | .signed => 4294967296 - ncross

/-- `pd_pack` (pd_pack.c 295-364) applied to the crossing and edge buffers (the only
parts of the diagram it reads). Word 0 is `ncross`, or `-ncross` as a 32-bit value when
the crossings are signed. The diagram must have fewer than 2^31 crossings for that
cast to be reversible. -/
def pack (cross : List Cross) (edge : List Edge) : Res (List Nat) := do
  let c0 ← rd cross 0
  assertC (if c0.sign = .unset then cross.tail.all (fun c => c.sign == .unset)
           else cross.tail.all (fun c => c.sign != .unset))
  let t : SignType := if c0.sign = .unset then .unsigned else .signed
  let ib ← indexbits cross.length
  let bits ← packCrossings cross edge t cross.length 0
  let words ← packbitstring bits (cross.length * crossbits ib t)
  .ok (firstWord cross.length t :: words)

/-- One slot of `pd_crossing_bitdecode` (pd_pack.c 271-291) at offset `ofs`. -/
def decodeSlot (bits : List Nat) (ofs ncross cr : Nat) (c : Cross) (edge : List Edge) (k : Nat) :
    Res (Cross × List Edge) := do
  let e ← idxBitdecode (bits.drop (ofs + 1)) ncross
  let c' ← c.wrPos k e
  let b ← rd bits ofs
  assertC (b == 0 || b == 1)
  let er ← rd edge e
  let er' : Edge := if b = 1 then { er with head := cr, headpos := k }
    else { er with tail := cr, tailpos := k }
  let edge' ← wr edge e er'
  .ok (c', edge')

/-- `pd_crossing_bitdecode` (pd_pack.c 242-293). -/
def crossingBitdecode (bits : List Nat) (cr : Nat) (ib : Nat) (cross : List Cross)
    (edge : List Edge) (t : SignType) : Res (List Cross × List Edge) := do
  let c ← rd cross cr
  let (c, ofs) ← (match t with
    | .signed => do
        let b ← rd bits 0
        assertC (b == 0 || b == 1)
        .ok ({ c with sign := if b = 1 then .pos else .neg }, 1)
    | .unsigned => .ok (c, 0) : Res (Cross × Nat))
  let n := cross.length
  let (c, edge) ← decodeSlot bits ofs n cr c edge 0
  let (c, edge) ← decodeSlot bits (ofs + (ib + 1)) n cr c edge 1
  let (c, edge) ← decodeSlot bits (ofs + 2 * (ib + 1)) n cr c edge 2
  let (c, edge) ← decodeSlot bits (ofs + 3 * (ib + 1)) n cr c edge 3
  let cross' ← wr cross cr c
  .ok (cross', edge)

/-- Loop of `pd_unpack` over the crossings (pd_pack.c 413-417). -/
def unpackCrossings (bits : List Nat) (ib : Nat) (t : SignType) :
    Nat → Nat → List Cross → List Edge → Res (List Cross × List Edge)
  | 0, _, cross, edge => .ok (cross, edge)
  | r + 1, k, cross, edge => do
    let (cross, edge) ← crossingBitdecode (bits.drop (k * crossbits ib t)) k ib cross edge t
    unpackCrossings bits ib t r (k + 1) cross edge

/-- A crossing as `calloc` leaves it (pdcode.c 71): zeros; note that the sign byte 0 is
`PD_NEG_ORIENTATION`. -/
def zeroCross : Cross := ⟨0, 0, 0, 0, .neg⟩

/-- An edge as `calloc` leaves it (pdcode.c 65). -/
def zeroEdge : Edge := ⟨0, 0, 0, 0⟩

/-- `pd_unpack` (pd_pack.c 381-429) up to, and not including, the final call of
`pd_regenerate`. The edge buffer has `2*ncross` live entries (the C buffer is at least
that long: `MAXEDGES = 2*maxverts+1`, pdcode.c 55). `(int)(bitform[0]) > 0` is
`0 < w0 < 2^31`. -/
def unpackRaw (words : List Nat) : Res (List Cross × List Edge) := do
  let w0 ← rd words 0
  let (ncross, t) : Nat × SignType :=
    if 0 < w0 ∧ w0 < 2147483648 then (w0, .unsigned)
    else ((4294967296 - w0) % 4294967296, .signed)
  assertC (ncross != 0)   -- pd_code_new asserts this, pdcode.c 47
  let nbits ← packbits ncross t
  let ib ← indexbits ncross
  let bits ← unpackbitstring words.tail nbits
  unpackCrossings bits ib t ncross 0 (List.replicate ncross zeroCross)
    (List.replicate (2 * ncross) zeroEdge)

end Plc.Pack
