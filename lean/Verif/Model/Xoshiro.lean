import Verif.Model.Basic

/-!
# The random number generator (`src/plc_xoshiro.c`)

`uint64_t` is `BitVec 64`. The buffer of four words is a record.
-/

namespace Plc.Xo

/-- The four words of the state. -/
structure St where
  s0 : BitVec 64
  s1 : BitVec 64
  s2 : BitVec 64
  s3 : BitVec 64
  deriving DecidableEq, Repr

/-- One round of the loop of `plc_xoshiro_init` (plc_xoshiro.c 46-50), for the value of
`init` after the addition. -/
def mix (z : BitVec 64) : BitVec 64 :=
  let z := (z ^^^ (z >>> 30)) * 0xBF58476D1CE4E5B9#64
  let z := (z ^^^ (z >>> 27)) * 0x94D049BB133111EB#64
  z ^^^ (z >>> 31)

/-- The constant added in each round (plc_xoshiro.c 46). -/
def gamma : BitVec 64 := 0x9E3779B97F4A7C15#64

/-- `plc_xoshiro_init` (plc_xoshiro.c 37-56). -/
def init (x : BitVec 64) : St :=
  let x0 := x + gamma
  let x1 := x0 + gamma
  let x2 := x1 + gamma
  let x3 := x2 + gamma
  { s0 := mix x0, s1 := mix x1, s2 := mix x2, s3 := mix x3 }

/-- `rotl` (plc_xoshiro.c 64-66). -/
def rotl (x : BitVec 64) (k : Nat) : BitVec 64 := (x <<< k) ||| (x >>> (64 - k))

/-- `next` (plc_xoshiro.c 68-84): the result and the new state. -/
def next (s : St) : BitVec 64 × St :=
  let result := s.s0 + s.s3
  let t := s.s1 <<< 17
  let s := { s with s2 := s.s2 ^^^ s.s0 }
  let s := { s with s3 := s.s3 ^^^ s.s1 }
  let s := { s with s1 := s.s1 ^^^ s.s2 }
  let s := { s with s0 := s.s0 ^^^ s.s3 }
  let s := { s with s2 := s.s2 ^^^ t }
  let s := { s with s3 := rotl s.s3 45 }
  (result, s)

/-- `plc_xoshiro_uniform` (plc_xoshiro.c 86-90): the value and the new state. `(r>>12)` has
at most 52 bits and `_nrm` is 2^-52, so the product of `double`s is exact; it is the rational
number here. -/
def uniform (s : St) : Rat × St :=
  let r := next s
  (((r.1 >>> 12).toNat : Rat) * (1 / 2 ^ 52), r.2)

/-- The four exclusive ors of `plc_xoshiro_jump` (plcRandomSap.c 96-99). -/
def xorSt (a b : St) : St := ⟨a.s0 ^^^ b.s0, a.s1 ^^^ b.s1, a.s2 ^^^ b.s2, a.s3 ^^^ b.s3⟩

/-- The table `JUMP` (plcRandomSap.c 86). -/
def JUMP : List (BitVec 64) := [0x180ec6d33cfd0aba#64, 0xd5a61266f0c9392c#64, 0xa9582618e03fc9aa#64, 0x39abdc4529b1661c#64]

/-- The inner loop of `plc_xoshiro_jump` (94-102), from bit `b` on with `k` bits to go: the sums and the state. -/
def jumpWord (w : BitVec 64) : Nat → Nat → St → St → St × St
  | 0, _, acc, s => (acc, s)
  | k + 1, b, acc, s => jumpWord w k (b + 1) (if w &&& (1#64 <<< b) ≠ 0#64 then xorSt acc s else acc) (next s).2

/-- `plc_xoshiro_jump` (plcRandomSap.c 84-109); `next` is the same in the two files. -/
def jump (s : St) : St :=
  (JUMP.foldl (fun r w => jumpWord w 64 0 r.1 r.2) (⟨0#64, 0#64, 0#64, 0#64⟩, s)).1

end Plc.Xo
