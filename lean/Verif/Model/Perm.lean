import Verif.Model.Basic
import Verif.Model.PermData

/-! # Permutations (`src/pd_perm.c`) -/

namespace Plc.PermM

/-- `pd_perm_t` (pd_perm.h). `n` is the length of `map`, so the two cannot disagree
here; `pd_new_perm` allocates exactly `n` entries. -/
structure Perm where
  map : List Nat
  pc : Nat
  deriving DecidableEq, Repr

/-- `perm->n`. -/
def Perm.n (p : Perm) : Nat := p.map.length

/-- `PD_MAX_PC_PERM` (pd_permdata.h 10). -/
def MAX_PC : Nat := 6

/-- `pd_new_perm` (pd_perm.c 46-64). -/
def newPerm (n : Nat) : Perm := ⟨List.range n, 0⟩

/-- Step 1 of the Knuth update (pd_perm.c 124), scanning `k` down from `c - 1`. `int`
indices are `Nat`; `none` is `lastperm`. -/
def findK (m : List Nat) : Nat → Res (Option Nat)
  | 0 => .ok none
  | k + 1 => do
    let a ← rd m k
    let b ← rd m (k + 1)
    if a < b then .ok (some k) else findK m k

/-- Step 2 (pd_perm.c 134), scanning `l` down. -/
def findL (m : List Nat) (k : Nat) : Nat → Res Nat
  | 0 => .ok 0
  | l + 1 =>
    if l + 1 > k + 1 then do
      let a ← rd m k
      let b ← rd m (l + 1)
      if a ≥ b then findL m k l else .ok (l + 1)
    else .ok (l + 1)

/-- `swap = m[i]; m[i] = m[j]; m[j] = swap` (pd_perm.c 136, 140). -/
def swapAt (m : List Nat) (i j : Nat) : Res (List Nat) := do
  let a ← rd m i
  let b ← rd m j
  let m ← wr m i b
  wr m j a

/-- Step 4 (pd_perm.c 138-142): reverse `m[i..j]` by swapping inwards. `fuel` bounds the
number of rounds; with `fuel ≥ j - i` it is never exhausted. -/
def revLoop : Nat → List Nat → Nat → Nat → Res (List Nat)
  | 0, m, _, _ => .ok m
  | f + 1, m, i, j =>
    if i < j then do
      let m ← swapAt m i j
      revLoop f m (i + 1) (j - 1)
    else .ok m

/-- The branch of `pd_increment_perm` for large `n` (pd_perm.c 117-146). -/
def nextLex (m : List Nat) : Res (List Nat) := do
  let k? ← findK m (m.length - 1)
  match k? with
  | none => .ok (List.range m.length)
  | some k => do
    let l ← findL m k (m.length - 1)
    let m ← swapAt m k l
    revLoop m.length m (k + 1) (m.length - 1)

/-- `pd_increment_perm` (pd_perm.c 82-148). For `n ≤ 6` the map is copied from the
table (the copy loop reads `n` entries of a row of length `n`; in C rows are padded to
6). `n = 0` computes `% 0`, which is undefined. -/
def incPerm (p : Perm) : Res Perm :=
  if p.n ≤ MAX_PC then do
    let np ← rd nPc p.n
    if np = 0 then .error .ub else do
      let pc := (p.pc + 1) % np
      let t ← rd pcTable p.n
      let row ← rd t pc
      .ok ⟨row, pc⟩
  else do
    let m ← nextLex p.map
    .ok ⟨m, 0⟩

/-- Loop of `pd_nperms` (pd_perm.c 181), in 32-bit unsigned arithmetic. -/
def factLoop : Nat → Nat
  | 0 => 1
  | i + 1 => factLoop i * (i + 1) % 2 ^ 32

/-- `pd_nperms` (pd_perm.c 163-184). -/
def nperms (p : Perm) : Res Nat :=
  if p.n ≤ MAX_PC then rd nPc p.n
  else .ok (factLoop p.n)

/-- The comparison loop of `pd_perm_ok` with a table row (pd_perm.c 210-219), from
position `i` on. -/
def rowEq (m row : List Nat) : Nat → Nat → Res Bool
  | 0, _ => .ok true
  | r + 1, i => do
    let a ← rd m i
    let b ← rd row i
    if a = b then rowEq m row r (i + 1) else .ok false

/-- First check loop of `pd_perm_ok` (pd_perm.c 225-234). -/
def allBelow (m : List Nat) : Bool := m.all (fun x => decide (x < m.length))

/-- Second check loop of `pd_perm_ok` (pd_perm.c 236-249): compare each entry with all
later ones. -/
def noRepeat : List Nat → Bool
  | [] => true
  | a :: l => l.all (fun b => decide (a ≠ b)) && noRepeat l

/-- `pd_perm_ok` (pd_perm.c 187-252). A non-verbose `pd_error` returns false. -/
def permOk (p : Perm) : Res Bool :=
  if p.n ≤ MAX_PC then do
    let np ← rd nPc p.n
    if p.pc > np then .ok false
    else if p.n = 0 then .ok true   -- no loop iteration reads the (NULL) table
    else do
      let t ← rd pcTable p.n
      let row ← rd t p.pc
      let same ← rowEq p.map row p.n 0
      if same then .ok (allBelow p.map && noRepeat p.map) else .ok false
  else .ok (allBelow p.map && noRepeat p.map)

/-- `pdint_perm_lex_cmp` (pd_perm.c 272-284). The C code returns the 32-bit unsigned
difference as an `int`; the model keeps the sign of the true difference, which is the
same when both entries are below 2^31. -/
def lexCmp : List Nat → List Nat → Int
  | a :: l, b :: m => if a ≠ b then (a : Int) - b else lexCmp l m
  | _, _ => 0

/-- `bsearch` as the C standard describes it: on an array where the comparison with the
key is never negative-to-positive out of order, it returns an index of an element that
compares equal if there is one and `NULL` otherwise. -/
structure BSearch where
  find : {α : Type} → (cmp : α → Int) → List α → Option Nat
  hit : ∀ {α : Type} (cmp : α → Int) (l : List α) (i : Nat),
    l.Pairwise (fun a b => (cmp b > 0 → cmp a > 0) ∧ (cmp b = 0 → cmp a ≥ 0)) →
    find cmp l = some i → ∃ a, l[i]? = some a ∧ cmp a = 0
  miss : ∀ {α : Type} (cmp : α → Int) (l : List α),
    l.Pairwise (fun a b => (cmp b > 0 → cmp a > 0) ∧ (cmp b = 0 → cmp a ≥ 0)) →
    find cmp l = none → ∀ a ∈ l, cmp a ≠ 0

/-- `pd_regenerate_pcidx` (pd_perm.c 388-409); `cmp key elem`. For `n = 0` the table is
`NULL` with 0 entries. -/
def regenPc (bs : BSearch) (m : List Nat) : Res Perm :=
  if m.length > MAX_PC then .ok ⟨m, 0⟩
  else do
    let t ← rd pcTable m.length
    match bs.find (fun row => lexCmp m row) t with
    | none => .error .die
    | some i => .ok ⟨m, i⟩

/-- The loop shared by `pd_compose_perms` (pd_perm.c 478-483) and `pd_stareq_perm`
(pd_perm.c 500): `out[i] = A[B[i]]`. -/
def composeMap (A : List Nat) : List Nat → Res (List Nat)
  | [] => .ok []
  | b :: B => do
    let x ← rd A b
    let r ← composeMap A B
    .ok (x :: r)

/-- `pd_compose_perms` (pd_perm.c 467-488). -/
def compose (bs : BSearch) (A B : Perm) : Res Perm := do
  assertC (A.n = B.n)
  let m ← composeMap A.map B.map
  regenPc bs m

/-- `pd_stareq_perm` (pd_perm.c 490-504): the map is updated, the table index is not. -/
def stareq (A B : Perm) : Res Perm := do
  assertC (A.n = B.n)
  let m ← composeMap A.map B.map
  .ok ⟨m, A.pc⟩

/-- `pd_perm_is_e` (pd_perm.c 454-465), from position `i` on. -/
def isEFrom : List Nat → Nat → Bool
  | [], _ => true
  | a :: l, i => decide (a = i) && isEFrom l (i + 1)

def isE (p : Perm) : Bool := isEFrom p.map 0

/-- Loop of `pd_perm_period` (pd_perm.c 512-514); `fuel` = `failsafe - period`. -/
def periodLoop (A : Perm) : Nat → Perm → Nat → Res Nat
  | 0, _, period => .ok period
  | f + 1, P, period =>
    if isE P then .ok period
    else do
      let P ← stareq P A
      periodLoop A f P (period + 1)

/-- `pd_perm_period` (pd_perm.c 506-520). -/
def period (A : Perm) : Res Nat := do
  let p ← periodLoop A (10000 - 1) A 1
  assertC (p < 10000)
  .ok p

/-- Loop of `pd_inverse_perm` (pd_perm.c 530-534). -/
def invLoop : List Nat → Nat → List Nat → Res (List Nat)
  | [], _, out => .ok out
  | a :: l, i, out => do
    let out ← wr out a i
    invLoop l (i + 1) out

/-- `pd_inverse_perm` (pd_perm.c 522-542). -/
def inverse (bs : BSearch) (p : Perm) : Res Perm := do
  let m ← invLoop p.map 0 (List.range p.n)
  regenPc bs m

end Plc.PermM
