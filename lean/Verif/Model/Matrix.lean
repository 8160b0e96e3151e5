import Verif.Model.FindCrossings

/-! # Matrices (`src/matrix.c`)

Doubles are real numbers, without rounding. A matrix is a function of row and column, of which rows and columns 0, 1, 2 are used. -/

namespace Plc.Mat

open Plc.FindCrossings

/-- Entries by row and column. -/
abbrev M := Nat → Nat → ℝ

/-- `(*m)[i][j] = v`. -/
noncomputable def put (m : M) (i j : Nat) (v : ℝ) : M := fun a b => if a = i ∧ b = j then v else m a b

/-- `plc_build_matrix` (39-52). -/
noncomputable def build (r0 r1 r2 : V3) : M := fun i j =>
  let r := if i = 0 then r0 else if i = 1 then r1 else r2
  if j = 0 then r.x else if j = 1 then r.y else r.z

/-- The largest entry of a row in magnitude (87-95). -/
noncomputable def rowBig (m : M) (i : Nat) : ℝ := [0, 1, 2].foldl (fun big j => if |m i j| > big then |m i j| else big) 0

/-- What changes during the decomposition (71-77): the matrix, the scale factors, the permutation of the rows, the sign and `imax`. -/
structure St where
  m : M
  vv : Nat → ℝ
  index : Nat → Nat
  d : ℝ
  imax : Nat

/-- The sums (113-121, 131-139). -/
noncomputable def reduced (m : M) (i j lim : Nat) : ℝ := (List.range lim).foldl (fun sum k => sum - m i k * m k j) (m i j)

/-- The entries of column `j` above the diagonal (111-125). -/
noncomputable def upper (m : M) (j : Nat) : M := (List.range j).foldl (fun m i => put m i j (reduced m i j i)) m

/-- The other entries of column `j` (129-141). -/
noncomputable def lower (m : M) (j : Nat) : M := (List.range' j (3 - j)).foldl (fun m i => put m i j (reduced m i j j)) m

/-- The search for a pivot (143-148), after all sums are there: `big` and `imax`. -/
noncomputable def pivot (m : M) (vv : Nat → ℝ) (j imax : Nat) : ℝ × Nat :=
  (List.range' j (3 - j)).foldl (fun x i => if vv i * |m i j| ≥ x.1 then (vv i * |m i j|, i) else x) (0, imax)

/-- Two indices interchanged. -/
def swp (a b i : Nat) : Nat := if i = a then b else if i = b then a else i

/-- The interchange of rows (152-173). -/
noncomputable def interchange (s : St) (j : Nat) : St :=
  if j ≠ s.imax then ⟨fun i => s.m (swp s.imax j i), fun i => s.vv (swp s.imax j i), fun i => s.index (swp s.imax j i), -s.d, s.imax⟩ else s

/-- A pivot of 0 is replaced (175). -/
noncomputable def tiny (m : M) (j : Nat) : M := if m j j = 0 then put m j j 1e-20 else m

/-- The division by the pivot (177-187). -/
noncomputable def divide (m : M) (j : Nat) : M := (List.range' (j + 1) (2 - j)).foldl (fun m' i => put m' i j (m' i j * (1 / m j j))) m

/-- One round of the loop over the columns (109-189). -/
noncomputable def column (s : St) (j : Nat) : St :=
  let m := lower (upper s.m j) j
  let s := interchange { s with m := m, imax := (pivot m s.vv j s.imax).2 } j
  { s with m := divide (tiny s.m j) j }

/-- `lu_decmp` (54-195): the decomposition, the permutation of the rows and the sign; `none` for NULL (then `*ok` is set to false; it is
never set to true). `imax` is -1 in the beginning, and not used before it is set. -/
noncomputable def luDecmp (A : M) : Option (M × (Nat → Nat) × ℝ) :=
  if rowBig A 0 = 0 ∨ rowBig A 1 = 0 ∨ rowBig A 2 = 0 then none
  else
    let s := [0, 1, 2].foldl column ⟨A, fun i => 1 / rowBig A i, fun i => i, 1, 3⟩
    some (s.m, s.index, s.d)

/-- Component `i` of a vector. -/
def comp (b : V3) (i : Nat) : ℝ := if i = 0 then b.x else if i = 1 then b.y else b.z

/-- `B[i] = v`. -/
noncomputable def putV (B : Nat → ℝ) (i : Nat) (v : ℝ) : Nat → ℝ := fun k => if k = i then v else B k

/-- `solve_linear` (197-260). -/
noncomputable def solveLinear (LU : M) (index : Nat → Nat) (b : V3) : V3 :=
  let B : Nat → ℝ := fun i => comp b (index i)
  let B := [0, 1, 2].foldl (fun B i => putV B i ((List.range i).foldl (fun sum j => sum - LU i j * B j) (B i))) B
  let B := [2, 1, 0].foldl (fun B i => putV B i ((List.range' (i + 1) (2 - i)).foldl (fun sum j => sum - LU i j * B j) (B i) / LU i i)) B
  ⟨B 0, B 1, B 2⟩

/-- `plc_matrix_vector_multiply` (262-276). -/
noncomputable def mulVec (A : M) (x : V3) : V3 :=
  let row := fun i => [0, 1, 2].foldl (fun s j => s + A i j * comp x j) 0
  ⟨row 0, row 1, row 2⟩

/-- `plc_matrix_matrix_multiply` (278-297). -/
noncomputable def mulMat (A B : M) : M := fun i j => [0, 1, 2].foldl (fun s k => s + A i k * B k j) 0

end Plc.Mat
