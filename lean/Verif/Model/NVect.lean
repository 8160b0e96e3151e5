import Mathlib.Analysis.SpecialFunctions.Complex.Arg
import Mathlib.Analysis.SpecialFunctions.Pow.NNReal

/-!
# Vectors of any dimension (`src/nvector.c`)

Numbers are real numbers without rounding. Memory is a list of blocks, numbered in the
order of allocation; each has a size and values. Reading or writing outside a block, a
failed `assert` and `exit` all give `none`. Blocks are never freed here, so the `free` of
`nplc_distance` (198) is left out.
-/

namespace Plc.NVect

/-- The memory: `calloc` (45-52) gives block `next`. -/
structure Mem where
  next : ℕ
  size : ℕ → ℕ
  val : ℕ → ℕ → ℝ

/-- `nplc_vector` (`nplCurve.h`): the dimension and the pointer to the values. -/
structure NV where
  n : ℕ
  p : ℕ

/-- `V.c[i]` as a value. -/
noncomputable def rd (m : Mem) (v : NV) (i : ℕ) : Option ℝ :=
  if v.p < m.next ∧ i < m.size v.p then some (m.val v.p i) else none

/-- `V.c[i] = x`. -/
noncomputable def wr (m : Mem) (v : NV) (i : ℕ) (x : ℝ) : Option Mem :=
  if v.p < m.next ∧ i < m.size v.p then
    some { m with val := Function.update m.val v.p (Function.update (m.val v.p) i x) }
  else none

/-- `nplc_vect_new` (45-52): zeros from `calloc`. -/
noncomputable def vnew (m : Mem) (n : ℕ) : Mem × NV :=
  ({ next := m.next + 1, size := Function.update m.size m.next n,
     val := Function.update m.val m.next (fun _ => 0) }, ⟨n, m.next⟩)

/-- `nplc_vect_dim` (97-103): the common dimension, by an `assert`. -/
def vdim (A B : NV) : Option ℕ := if A.n = B.n then some A.n else none

/-- The loops `for(i=0;i<n;i++) R.c[i] = ...`. -/
noncomputable def fill (R : NV) (f : Mem → ℕ → Option ℝ) : ℕ → Mem → Option Mem
  | 0, m => some m
  | n + 1, m => (fill R f n m).bind fun m1 => (f m1 n).bind fun x => wr m1 R n x

/-- The loops `for(i=0;i<n;i++) ret += ...`. -/
noncomputable def accum (f : ℕ → Option ℝ) : ℕ → Option ℝ
  | 0 => some 0
  | n + 1 => (accum f n).bind fun s => (f n).bind fun x => some (s + x)

/-- `nplc_vect_sum`, `nplc_vect_diff`, `nplc_component_mult` and `nplc_vlincomb`: a new
vector with values from those of the arguments. -/
noncomputable def map2 (g : ℝ → ℝ → ℝ) (m : Mem) (A B : NV) : Option (Mem × NV) :=
  (vdim A B).bind fun n =>
    let (m1, R) := vnew m n
    (fill R (fun m i => (rd m A i).bind fun a => (rd m B i).bind fun b => some (g a b)) n m1).bind
      fun m2 => some (m2, R)

/-- `nplc_vect_sum` (106-113). -/
noncomputable def vsum := map2 fun a b => a + b

/-- `nplc_vect_diff` (116-124). -/
noncomputable def vdiff := map2 fun a b => a - b

/-- `nplc_component_mult` (136-145). -/
noncomputable def cmult := map2 fun a b => a * b

/-- `nplc_scale_vect` (127-134). -/
noncomputable def scale (s : ℝ) (m : Mem) (A : NV) := map2 (fun a _ => s * a) m A A

/-- `nplc_vlincomb` (342-352); the values are added to the zeros of the new vector. -/
noncomputable def vlincomb (a : ℝ) (b : ℝ) := map2 fun x y => 0 + (a * x + b * y)

/-- `nplc_vweighted` (363-370). -/
noncomputable def vweighted (s : ℝ) := vlincomb (1 - s) s

/-- `nplc_vmadd` (354-361): the loop writes to the values of the argument `A`, and `A` is
returned. -/
noncomputable def vmadd (m : Mem) (A : NV) (s : ℝ) (B : NV) : Option (Mem × NV) :=
  (vdim A B).bind fun n =>
    (fill A (fun m i => (rd m A i).bind fun a => (rd m B i).bind fun b => some (a + s * b)) n m).bind
      fun m2 => some (m2, A)

/-- `nplc_dot_prod` (179-187). -/
noncomputable def dot (m : Mem) (A B : NV) : Option ℝ :=
  (vdim A B).bind fun n =>
    accum (fun i => (rd m A i).bind fun a => (rd m B i).bind fun b => some (a * b)) n

/-- `nplc_norm` (189-191). -/
noncomputable def norm (m : Mem) (A : NV) : Option ℝ := (dot m A A).map Real.sqrt

/-- `nplc_distance` (193-201). -/
noncomputable def distance (m : Mem) (A B : NV) : Option ℝ :=
  (vdiff m A B).bind fun (m1, d) => norm m1 d

/-- `nplc_sq_dist` (203-211). -/
noncomputable def sqDist (m : Mem) (A B : NV) : Option ℝ :=
  (vdim A B).bind fun n =>
    accum (fun i => (rd m A i).bind fun a => (rd m B i).bind fun b => some (a * b)) n

/-- The square added for `i` and `j` in `nplc_angle`. -/
noncomputable def minor2 (m : Mem) (A B : NV) (j i : ℕ) : Option ℝ :=
  (rd m A i).bind fun ai => (rd m B j).bind fun bj => (rd m A j).bind fun aj => (rd m B i).bind fun bi =>
    some ((ai * bj - aj * bi) * (ai * bj - aj * bi))

/-- `nplc_angle` (217-268): the angle and `*ok`. The outer loop starts at 1 in the code; for
`j = 0` the inner loop is empty. `atan2(L,D)` is the argument of `D + L i`. -/
noncomputable def angle (m : Mem) (A B : NV) : Option (ℝ × Bool) :=
  (vdim A B).bind fun n =>
    (accum (fun j => accum (minor2 m A B j) j) n).bind fun l2 =>
      (dot m A B).bind fun d =>
        let l := Real.sqrt l2
        some (Complex.arg ⟨d, l⟩, decide (|l| > 1e-12 ∨ |d| > 1e-12))

/-- `nplc_normalize_vect` (284-304) with `ok == NULL`: small norms end the program. -/
noncomputable def normalize (eps : ℝ) (m : Mem) (V : NV) : Option (Mem × NV) :=
  (norm m V).bind fun r => if r < eps ∧ -r < eps then none else scale (1 / r) m V

end Plc.NVect
