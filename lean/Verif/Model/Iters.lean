import Verif.Model.Perm

/-! # Dihedral, cyclic and orientation iterators
(`src/pd_dihedral.c`, `src/pd_cyclic.c`, `src/pd_orientation.c`) -/

namespace Plc.Iters

open Plc.PermM (allBelow noRepeat)

/-- `for(i = start; i < start + cnt; i++) m[i] = f(i)`: the fill loops at
pd_dihedral.c 201 and 208. -/
def fill (f : Nat → Nat) : Nat → Nat → List Nat → Res (List Nat)
  | 0, _, m => .ok m
  | c + 1, i, m => do
    let m ← wr m i (f i)
    fill f c (i + 1) m

/-- `for(i=0;i<n-1;i++) { map[i] = map[i+1]; }` (pd_dihedral.c 213, pd_cyclic.c 162), with
`cnt` rounds left. -/
def shiftLoop : Nat → Nat → List Nat → Res (List Nat)
  | 0, _, m => .ok m
  | c + 1, i, m => do
    let a ← rd m (i + 1)
    let m ← wr m i a
    shiftLoop c (i + 1) m

/-- Rotation by one in place (pd_dihedral.c 212-214, pd_cyclic.c 161-163). With `n = 0`
the first read is out of bounds. -/
def rotate1 (m : List Nat) : Res (List Nat) := do
  let swap ← rd m 0
  let m ← shiftLoop (m.length - 1) 0 m
  wr m (m.length - 1) swap

/-- `pd_dihedral_t` (pd_dihedral.h); `n` is the length of `map`. -/
structure Dihedral where
  map : List Nat
  orient : Or
  deriving DecidableEq, Repr

/-- `pd_new_dihedral` (pd_dihedral.c 47-65). -/
def newDihedral (n : Nat) : Dihedral := ⟨List.range n, .pos⟩

/-- `pd_increment_dihedral` (pd_dihedral.c 170-219). -/
def incDihedral (d : Dihedral) : Res Dihedral :=
  let n := d.map.length
  if n = 1 then
    match d.orient with
    | .pos => .ok { d with orient := .neg }
    | .neg => .ok { d with orient := .pos }
    | .unset => .error .die
  else do
    let m0 ← rd d.map 0
    if d.orient = .pos ∧ m0 = n - 1 then do
      let m ← wr d.map 0 0
      let m ← fill (fun i => n - i) (n - 1) 1 m
      .ok ⟨m, .neg⟩
    else if d.orient = .neg ∧ m0 = 1 then do
      let m ← fill (fun i => i) n 0 d.map
      .ok ⟨m, .pos⟩
    else do
      let m ← rotate1 d.map
      .ok { d with map := m }

/-- `pd_ndihedrals` (pd_dihedral.c 222-229). -/
def ndihedrals (d : Dihedral) : Nat := 2 * d.map.length

/-- The upward check at pd_dihedral.c 293-301 and pd_cyclic.c 216-224, over adjacent
pairs. -/
def goesUp (n : Nat) : List Nat → Bool
  | a :: b :: l => !(decide (a ≥ b) && !(decide (a = n - 1) && decide (b = 0))) && goesUp n (b :: l)
  | _ => true

/-- The downward check at pd_dihedral.c 281-289. -/
def goesDown (n : Nat) : List Nat → Bool
  | a :: b :: l => !(decide (a ≤ b) && !(decide (a = 0) && decide (b = n - 1))) && goesDown n (b :: l)
  | _ => true

/-- `pd_dihedral_ok` (pd_dihedral.c 232-307), for `n ≥ 1` (for `n = 0` the C loops run
to `(unsigned) -1`). -/
def dihedralOk (d : Dihedral) : Bool :=
  allBelow d.map && noRepeat d.map &&
  (match d.orient with
   | .unset => false
   | .neg => goesDown d.map.length d.map
   | .pos => goesUp d.map.length d.map)

/-- `pd_new_cyclic` (pd_cyclic.c 44-60). -/
def newCyclic (n : Nat) : List Nat := List.range n

/-- `pd_increment_cyclic` (pd_cyclic.c 143-168). -/
def incCyclic (m : List Nat) : Res (List Nat) :=
  if m.length = 1 then .ok m else rotate1 m

/-- `pd_ncyclics` (pd_cyclic.c 171-178). -/
def ncyclics (m : List Nat) : Nat := m.length

/-- `pd_cyclic_ok` (pd_cyclic.c 181-229), for `n ≥ 1`. -/
def cyclicOk (m : List Nat) : Bool := allBelow m && noRepeat m && goesUp m.length m

/-- `pd_compose_or` (pdcode.c 180-197). -/
def composeOr : Or → Or → Res Or
  | .pos, .pos => .ok .pos
  | .neg, .neg => .ok .pos
  | .pos, .neg => .ok .neg
  | .neg, .pos => .ok .neg
  | _, _ => .error .die

/-- `pd_or_ok` (pdcode.c 199-202). -/
def orOk (o : Or) : Bool := decide (o = .pos) || decide (o = .neg)

/-- `pd_new_orientation` (pd_orientation.c 46-54). -/
def newOrientation : Or := .pos

/-- `pd_increment_orientation` (pd_orientation.c 96-118); `pd_error` without the verbose
flag returns and leaves the value alone. -/
def incOrientation : Or → Res Or
  | .pos => .ok .neg
  | .neg => .ok .pos
  | .unset => .ok .unset

/-- `pd_norientations` (pd_orientation.c 121-127). -/
def norientations (_ : Or) : Nat := 2

end Plc.Iters
