import Verif.Model.Basic

/-!
# Random permutations with a given number of ascents (`src/kascentpermutation.c`)

The table `naptable` is not part of the repository (`naptable.h` is listed in
`src/Makefile.am` but is not there), so it is a parameter here: any list of numbers.
Its entries and the numbers of `gsl_rng_uniform` are rationals, as every `double` is;
the code does nothing with them but compare them. The numbers drawn are arbitrary:
`u` answers `gsl_rng_uniform`, `v` answers `gsl_rng_uniform_int`.
-/

namespace Plc.Kasc

/-- `buf[i]` for a C `int` index: a negative one is out of bounds. -/
def rdI {α : Type} (l : List α) (i : Int) : Res α :=
  if 0 ≤ i then rd l i.toNat else .error .ub

/-- `buf[i] = a` for a C `int` index. -/
def wrI {α : Type} (l : List α) (i : Int) (a : α) : Res (List α) :=
  if 0 ≤ i then wr l i.toNat a else .error .ub

/-- `new_ascent_probability` (kascentpermutation.c 49-66). `int` overflow of `n*n`, which
needs n > 46340, is not modelled; the table ends long before. -/
def nap (tab : List Rat) (n k : Int) : Res Rat :=
  rdI tab ((2 - 3 * n + n * n).tdiv 2 + k - 1)

/-- The `do … while` loop of `build_choice_vector` (kascentpermutation.c 92-108). `cv` is
the part of the buffer written so far, so that `i` is its length; `N` is the size of the
buffer. `fuel` counts the iterations still allowed; it never runs out before the buffer
does (there are `N + 1` of them). -/
def choiceLoop (tab : List Rat) (u : Nat → Rat) (N : Nat) :
    Nat → List (Int × Int) → Int → Int → Res (List (Int × Int))
  | 0, _, _, _ => .error .ub
  | fuel + 1, cv, n, k =>
    if cv.length < N then do
      let p ← nap tab n k
      let k' := if u cv.length < p then k - 1 else k
      let n' := n - 1
      if k' ≠ n' - 1 ∧ k' ≠ 0 then
        choiceLoop tab u N fuel (cv ++ [(n, k)]) n' k'
      else if cv.length + 1 < N then .ok (cv ++ [(n, k), (n', k')])
      else .error .ub
    else .error .ub

/-- `build_choice_vector` (kascentpermutation.c 74-114): the pairs (n, k), whose number is
`*nchoices`. -/
def buildChoice (tab : List Rat) (u : Nat → Rat) (N : Nat) (K : Int) : Res (List (Int × Int)) :=
  choiceLoop tab u N (N + 1) [] N K

/-- `working_perm_t` (kascentpermutation.c 131-138): nodes are pairs (`s`, `next`). -/
structure WPerm where
  node : List (Int × Int)
  start : Int
  max : Nat
  used : Nat
  deriving DecidableEq, Repr

/-- `wperm_new` (kascentpermutation.c 140-150). -/
def wpermNew (n : Nat) : WPerm :=
  { node := List.replicate n (0, 0), start := 0, max := n, used := 0 }

/-- The loops of `make_descending_wperm` and `make_ascending_wperm` (kascentpermutation.c
157-162, 175-180): nodes `i`, `i+1`, … (`todo` of them) get the values `g i`, `g (i+1)`, … -/
def fillLoop (g : Nat → Int) : Nat → Nat → List (Int × Int) → Res (List (Int × Int))
  | 0, _, node => .ok node
  | todo + 1, i, node => do
    let node ← wr node i (g i, (i : Int) + 1)
    fillLoop g todo (i + 1) node

/-- The rest of the two functions: `node[i-1].next = -1`, and the fields. -/
def makeW (g : Nat → Int) (wp : WPerm) (n : Int) : Res WPerm := do
  assertC (n < (wp.max : Int))
  let node ← fillLoop g n.toNat 0 wp.node
  let a ← rdI node (n.toNat - 1)
  let node ← wrI node (n.toNat - 1) (a.1, -1)
  .ok { wp with node := node, start := 0, used := n.toNat }

/-- `make_descending_wperm` (kascentpermutation.c 152-167). -/
def makeDescending (wp : WPerm) (n : Int) : Res WPerm := makeW (fun i => n - (i : Int)) wp n

/-- `make_ascending_wperm` (kascentpermutation.c 170-185). -/
def makeAscending (wp : WPerm) (n : Int) : Res WPerm := makeW (fun i => (i : Int) + 1) wp n

/-- `convert_wperm_to_buffer` (kascentpermutation.c 187-204), from place `i` on. `fuel`
bounds the number of nodes walked; a list that has more than `max` of them is cyclic, the
C code would write past `buf`. -/
def convertLoop (node : List (Int × Int)) : Nat → Nat → Int → List Int → Res (List Int)
  | 0, _, _, _ => .error .ub
  | fuel + 1, i, loc, buf =>
    if loc = -1 then .ok buf
    else do
      let a ← rdI node loc
      let buf ← wr buf i a.1
      convertLoop node fuel (i + 1) a.2 buf

/-- The walk of `wperm_insert_at_ascent` and `wperm_insert_at_descent`
(kascentpermutation.c 230-243, 283-296): the node where pair number `want` of neighbours
with `lt` starts, `none` if the list ends before. `fuel` bounds the walk; running out means
that the list is cyclic and the C code does not return. -/
def walk (lt : Int → Int → Bool) (node : List (Int × Int)) (want : Int) :
    Nat → Int → Int → Res (Option Int)
  | 0, _, _ => .error .die
  | fuel + 1, loc, cnt => do
    let a ← rdI node loc
    if a.2 = -1 then .ok none
    else do
      let b ← rdI node a.2
      if lt a.1 b.1 then
        if cnt + 1 = want then .ok (some loc) else walk lt node want fuel a.2 (cnt + 1)
      else walk lt node want fuel a.2 cnt

/-- Insertion behind node `loc` (kascentpermutation.c 244-252, 297-305). -/
def insertAfter (wp : WPerm) (x : Int) (loc : Int) : Res WPerm := do
  let a ← rdI wp.node loc
  let node ← wr wp.node wp.used (x, a.2)
  let a ← rdI node loc
  let node ← wrI node loc (a.1, wp.used)
  assertC (wp.used + 1 ≤ wp.max)
  .ok { wp with node := node, used := wp.used + 1 }

/-- `wperm_insert_at_ascent` (kascentpermutation.c 222-271), with `lt` the order `<`, and
`wperm_insert_at_descent` (kascentpermutation.c 273-321), with `lt` the order `>`. -/
def insertAt (lt : Int → Int → Bool) (wp : WPerm) (x : Int) (want : Int) : Res WPerm := do
  match ← walk lt wp.node want (wp.max + 1) wp.start (-1) with
  | some loc => insertAfter wp x loc
  | none => .error .die

/-- `wperm_insert_at_ascent`. -/
def insertAtAscent (wp : WPerm) (x want : Int) : Res WPerm := insertAt (fun a b => decide (a < b)) wp x want

/-- `wperm_insert_at_descent`. -/
def insertAtDescent (wp : WPerm) (x want : Int) : Res WPerm := insertAt (fun a b => decide (a > b)) wp x want

/-- `wperm_insert_at_start` (kascentpermutation.c 323-331). -/
def insertAtStart (wp : WPerm) (x : Int) : Res WPerm := do
  let node ← wr wp.node wp.used (x, wp.start)
  assertC (wp.used + 1 ≤ wp.max)
  .ok { wp with node := node, start := wp.used, used := wp.used + 1 }

/-- The search of `wperm_insert_at_end` (kascentpermutation.c 345-347) from `i` on, with
`todo` nodes left. -/
def lastLoop (node : List (Int × Int)) : Nat → Nat → Res (Option Nat)
  | 0, _ => .ok none
  | todo + 1, i => do
    let a ← rd node i
    if a.2 = -1 then .ok (some i) else lastLoop node todo (i + 1)

/-- `wperm_insert_at_end` (kascentpermutation.c 333-363). -/
def insertAtEnd (wp : WPerm) (x : Int) : Res WPerm := do
  match ← lastLoop wp.node wp.used 0 with
  | none => .error .die
  | some i => do
    let a ← rd wp.node i
    let node ← wr wp.node i (a.1, wp.used)
    let node ← wr node wp.used (x, -1)
    assertC (wp.used + 1 ≤ wp.max)
    .ok { wp with node := node, used := wp.used + 1 }

/-- `ascent_count` (kascentpermutation.c 365-379), from `i` on, with `todo` places left. -/
def ascentLoop (perm : List Int) : Nat → Nat → Nat → Res Nat
  | 0, _, cnt => .ok cnt
  | todo + 1, i, cnt => do
    let b ← rd perm (i + 1)
    let a ← rd perm i
    ascentLoop perm todo (i + 1) (if b > a then cnt + 1 else cnt)

/-- `ascent_count`. -/
def ascentCount (perm : List Int) (n : Nat) : Res Nat := ascentLoop perm (n - 1) 0 0

/-- `gsl_rng_uniform_int(rng, m)`: a number from 0 to m-1, here the remainder of an
arbitrary number; for m ≤ 0 the library's error handler aborts. -/
def uniformInt (x : Nat) (m : Int) : Res Int := if 0 < m then .ok ((x : Int) % m) else .error .die

/-- One round of the loop of `random_k_ascent_permutation` (kascentpermutation.c 428-482)
for the neighbours `a` = `cv[i-1]`, `b` = `cv[i]` of the choice vector. -/
def insStep (x : Nat) (a b : Int × Int) (wp : WPerm) : Res WPerm :=
  if a.2 ≠ b.2 then do
    let descent ← uniformInt x (b.1 - b.2)
    if descent = b.1 - b.2 - 1 then insertAtEnd wp a.1 else insertAtDescent wp a.1 descent
  else do
    let ascent ← uniformInt x (b.2 + 1)
    if ascent = b.2 then insertAtStart wp a.1 else insertAtAscent wp a.1 ascent

/-- The loop, from `i` down to 1. The random number of the round for `i` is called
`v i`. -/
def insLoop (v : Nat → Nat) (cv : List (Int × Int)) : Nat → WPerm → Res WPerm
  | 0, wp => .ok wp
  | i + 1, wp => do
    let a ← rd cv i
    let b ← rd cv (i + 1)
    let wp ← insStep (v (i + 1)) a b wp
    insLoop v cv i wp

/-- The initial permutation (kascentpermutation.c 414-422) for the last pair `e` of the
choice vector. -/
def makeFirst (wp : WPerm) (e : Int × Int) : Res WPerm :=
  if e.2 = 0 then makeDescending wp e.1 else makeAscending wp e.1

/-- `random_k_ascent_permutation` (kascentpermutation.c 383-496); `perm` is the caller's
buffer. -/
def randomKAscent (tab : List Rat) (u : Nat → Rat) (v : Nat → Nat) (n : Nat) (k : Int) (perm : List Int) :
    Res (List Int) := do
  let wp := wpermNew n
  let cv ← buildChoice tab u n k
  let e ← rd cv (cv.length - 1)
  let wp ← makeFirst wp e
  let wp ← insLoop v cv (cv.length - 1) wp
  convertLoop wp.node (wp.max + 1) 0 wp.start perm

/-- `random_k_descent_permutation` (kascentpermutation.c 499-505). -/
def randomKDescent (tab : List Rat) (u : Nat → Rat) (v : Nat → Nat) (n : Nat) (k : Int) (perm : List Int) :
    Res (List Int) :=
  randomKAscent tab u v n ((n : Int) - 1 - k) perm

end Plc.Kasc
