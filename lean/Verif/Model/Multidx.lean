import Verif.Model.Basic

/-! # Multi-indices (`src/pd_multidx.c`) -/

namespace Plc.Multidx

/-- The iterator operations a multi-index uses (`pd_iterops_t`, pd_multidx.h): `incr` and
`nvals`. Objects live behind pointers in C; here the object is its current value. -/
structure Ops (σ : Type) where
  incr : σ → Res σ
  nvals : σ → Res Nat

/-- `pd_multidx_t` (pd_multidx.h). `nobj` is the length of `obj`. -/
structure Multi (σ : Type) where
  obj : List σ
  i : List Nat
  nvals : List Nat
  deriving DecidableEq

/-- `pd_new_multidx` (pd_multidx.c 53-86). The objects made by `ops.new` are given. -/
def newMultidx {σ : Type} (ops : Ops σ) (obj : List σ) : Res (Multi σ) := do
  let nv ← obj.mapM ops.nvals
  .ok ⟨obj, List.replicate obj.length 0, nv⟩

/-- `n - 1` in 32-bit unsigned arithmetic. -/
def pred32 (n : Nat) : Nat := (n + (2 ^ 32 - 1)) % 2 ^ 32

/-- The first loop of `pd_increment_multidx` (pd_multidx.c 126-133), with `c` rounds
left; `rr` is the loop variable. -/
def countRR {σ : Type} (m : Multi σ) : Nat → Nat → Res Nat
  | 0, rr => .ok rr
  | c + 1, rr => do
    let a ← rd m.i (m.obj.length - 1 - rr)
    let b ← rd m.nvals (m.obj.length - 1 - rr)
    if a ≠ pred32 b then .ok rr else countRR m c (rr + 1)

/-- The second loop (pd_multidx.c 144-149). -/
def incLoop {σ : Type} (ops : Ops σ) : Nat → Nat → Multi σ → Res (Multi σ)
  | 0, _, m => .ok m
  | c + 1, k, m => do
    let a ← rd m.i k
    let b ← rd m.nvals k
    if b = 0 then .error .ub else do   -- `% 0`
      let i' ← wr m.i k ((a + 1) % b)
      let o ← rd m.obj k
      let o' ← ops.incr o
      let obj' ← wr m.obj k o'
      incLoop ops c (k + 1) { m with i := i', obj := obj' }

/-- `pd_increment_multidx` (pd_multidx.c 117-151). -/
def incMultidx {σ : Type} (ops : Ops σ) (m : Multi σ) : Res (Multi σ) := do
  let rr ← countRR m m.obj.length 0
  let rr := if rr < m.obj.length then rr + 1 else rr
  incLoop ops rr (m.obj.length - rr) m

/-- `pd_multidx_nvals` (pd_multidx.c 153-168), in 32-bit unsigned arithmetic. -/
def nvalsFrom : Nat → List Nat → Nat
  | acc, [] => acc
  | acc, n :: l => nvalsFrom (acc * n % 2 ^ 32) l

def multidxNvals {σ : Type} (m : Multi σ) : Nat := nvalsFrom 1 m.nvals

end Plc.Multidx
