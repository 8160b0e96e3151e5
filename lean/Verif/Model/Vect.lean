import Verif.Model.Io
import Verif.Model.Constraint

/-!
# Writing and reading curves: VECT files (`src/plCurve.c`)

Text is a list of characters. A `double` is a value of some type `F`; how `printf` and `scanf` convert it is a
parameter (`NumFmt`), of which only what the C library promises is used. `int` sums are taken not to overflow; a number
in a file that is no `int` is undefined behaviour, as the C standard says of `%d`.
-/

namespace Plc.Vect

open Plc.Io Plc.Cst

/-- `"%.16g"`, `"%g"` and `"%lf"`. The text printed has no white space, no `#` and no NUL. Scanned up to the white
space behind it, it gives the number rounded (`r16`, `r6`) to the digits printed. -/
structure NumFmt where
  F : Type
  dec : DecidableEq F
  zero : F
  /-- `plc_M_vecteq` (plCurve.h 310-316) of two vectors. -/
  same : F × F × F → F × F × F → Bool
  p16 : F → List Char
  p6 : F → List Char
  r16 : F → F
  r6 : F → F
  scan : List Char → Option (F × List Char)
  word16 : ∀ x, p16 x ≠ [] ∧ ∀ c ∈ p16 x, isSpace c = false ∧ c ≠ '#' ∧ c ≠ '\x00'
  word6 : ∀ x, p6 x ≠ [] ∧ ∀ c ∈ p6 x, isSpace c = false ∧ c ≠ '#' ∧ c ≠ '\x00'
  back16 : ∀ x c t, isSpace c = true → scan (p16 x ++ c :: t) = some (r16 x, c :: t)
  back6 : ∀ x c t, isSpace c = true → scan (p6 x ++ c :: t) = some (r6 x, c :: t)

instance (N : NumFmt) : DecidableEq N.F := N.dec

/-- `plc_vector`. -/
abbrev V3 (N : NumFmt) := N.F × N.F × N.F

/-- The two vectors of a constraint. -/
abbrev VV (N : NumFmt) := V3 N × V3 N

/-- `plc_color`. -/
abbrev Col (N : NumFmt) := N.F × N.F × N.F × N.F

/-- `plc_strand` (plCurve.h 102-108): `nv` and `cc` are the lengths; `lo` and `hi` are `vt[-1]` and `vt[nv]`. -/
structure Strand (N : NumFmt) where
  isOpen : Bool
  vt : List (V3 N)
  clr : List (Col N)
  lo : V3 N
  hi : V3 N

/-- `plCurve` (plCurve.h), without quantifiers and symmetry group. -/
structure Curve (N : NumFmt) where
  cp : List (Strand N)
  cst : List (Cst (VV N))

variable {N : NumFmt}

/-- `(0,0,0)`. -/
def zero3 (N : NumFmt) : V3 N := (N.zero, N.zero, N.zero)

/-! ## Writing -/

/-- `%d`. -/
def decI (n : Int) : List Char := if n < 0 then '-' :: dec n.natAbs else dec n.natAbs

/-- Three numbers with blanks between them. -/
def triple (p : N.F → List Char) (v : V3 N) : List Char :=
  p v.1 ++ ' ' :: (p v.2.1 ++ ' ' :: p v.2.2)

/-- The line defining constraint number `k` (plCurve.c 864-873). -/
def cstLine (k : Nat) (c : Cst (VV N)) : List Char :=
  match c.kind with
  | .fixed => str "# Constraint " ++ dec k ++ str " Fixed " ++ triple N.p6 c.vect.1 ++ str "\n"
  | .line => str "# Constraint " ++ dec k ++ str " Line " ++ triple N.p6 c.vect.1 ++ str " " ++
      triple N.p6 c.vect.2 ++ str "\n"
  | .plane => str "# Constraint " ++ dec k ++ str " Plane " ++ triple N.p6 c.vect.1 ++ str " " ++
      N.p6 c.vect.2.1 ++ str "\n"
  | .unconstrained => []

/-- Whether the constraint is already in the list (plCurve.c 849-856). -/
def twin (c d : Cst (VV N)) : Bool :=
  c.kind = d.kind && c.cmp = d.cmp && N.same c.vect.1 d.vect.1 && N.same c.vect.2 d.vect.2 && c.vert = d.vert &&
    c.num = d.num

/-- `cst_nums[cmp][i] = k` for `n` values of `i` (plCurve.c 877-879). -/
def mark (cmp k : Nat) : Nat → Int → List (List Nat) → Res (List (List Nat))
  | 0, _, nums => .ok nums
  | n + 1, i, nums => do
    let row ← rd nums cmp
    let row' ← if i < 0 then .error .ub else wr row i.toNat k
    let nums' ← wr nums cmp row'
    mark cmp k n (i + 1) nums'

/-- The loop over the constraints (plCurve.c 842-880): the lines printed and the table `cst_nums`. `seen` is
`cst_list`, the newest first; the number of a constraint found in it is its place in that list. -/
def writeCsts : List (Cst (VV N)) → List (List Nat) → List (Cst (VV N)) → Res (List Char × List (List Nat))
  | _, nums, [] => .ok ([], nums)
  | seen, nums, c :: t => do
    assertC (c.kind ≠ .unconstrained)
    match seen.findIdx? (twin c) with
    | some i =>
      let nums' ← mark c.cmp (i + 1) c.num.toNat c.vert nums
      writeCsts seen nums' t
    | none =>
      let nums' ← mark c.cmp (seen.length + 1) c.num.toNat c.vert nums
      let r ← writeCsts (c :: seen) nums' t
      .ok (cstLine (seen.length + 1) c ++ r.1, r.2)

/-- The line of a vertex with constraint number `k`, printed into buffers of 80 characters (plCurve.c 889-902). -/
def vertLine (v : V3 N) (k : Nat) : List Char :=
  let s := (triple N.p16 v).take 79
  (if k ≠ 0 then (s ++ (str " # Cst: " ++ dec k)).take 79 else s) ++ str "\n"

/-- The lines of the vertices of a component. -/
def vertLines : List (V3 N) → List Nat → List Char
  | v :: vs, k :: ks => vertLine v k ++ vertLines vs ks
  | _, _ => []

/-- The vertices of the components from number `i` on (plCurve.c 886-903). -/
def vertBlock : Nat → List (Strand N) → List (List Nat) → List Char
  | i, s :: ss, r :: rs => str "# Component " ++ dec i ++ str "\n" ++ vertLines s.vt r ++ vertBlock (i + 1) ss rs
  | _, _, _ => []

/-- The line of a colour (plCurve.c 911-912). -/
def colLine (c : Col N) : List Char :=
  N.p16 c.1 ++ ' ' :: (N.p16 c.2.1 ++ ' ' :: (N.p16 c.2.2.1 ++ ' ' :: (N.p16 c.2.2.2 ++ str "\n")))

/-- The colours of the components from number `i` on (plCurve.c 908-914). -/
def colBlock : Nat → List (Strand N) → List Char
  | _, [] => []
  | i, s :: ss => str "# Component " ++ dec i ++ str "\n" ++ s.clr.flatMap colLine ++ colBlock (i + 1) ss

/-- Number of vertices, negative for a closed component (plCurve.c 828-834). -/
def signedNv (s : Strand N) : Int := if s.isOpen then s.vt.length else -(s.vt.length : Int)

/-- `plc_write` (plCurve.c 798-934): the text written. -/
def write (L : Curve N) : Res (List Char) := do
  assertC (0 < L.cp.length)
  let w ← writeCsts [] (L.cp.map fun s => List.replicate s.vt.length 0) L.cst
  .ok (str "VECT \n" ++ (dec L.cp.length ++ (str " " ++ (dec (L.cp.map fun s => s.vt.length).sum ++ (str " " ++
    (dec (L.cp.map fun s => s.clr.length).sum ++ (str " # Components Vertices Colors\n" ++
    (L.cp.flatMap (fun s => decI (signedNv s) ++ str " ") ++ (str "# Vertices per Component\n" ++
    (L.cp.flatMap (fun s => dec s.clr.length ++ str " ") ++ (str "# Colors per Compoment\n" ++
    (w.1 ++ (str "# Vertex coordinates\n" ++ (vertBlock 0 L.cp w.2 ++
    (str "# Colors (red green blue alpha)\n" ++ colBlock 0 L.cp)))))))))))))))

/-! ## Reading -/

/-- The error numbers of `plc_read` (plCurve.h 793-803). -/
inductive Err where
  | noVect
  | badCvcLine
  | badCmpNum
  | badCvrtLine
  | badClrLine
  | badColor
  | badVertLine
  | badCstNum
  | badCstLine
  | badCstKind
  | badCstNums
  deriving DecidableEq, Repr

/-- Why `plc_read` returns no curve: it did not return, or it returned an error number. -/
inductive Stop where
  | fault (f : Fault)
  | err (e : Err)
  deriving DecidableEq, Repr

/-- Result of a part of `plc_read`. -/
abbrev Rd (α : Type) := Except Stop α

/-- A call of a function that may not return. -/
def lift {α : Type} : Res α → Rd α
  | .ok a => .ok a
  | .error f => .error (.fault f)

/-- A conversion without which `plc_read` returns an error number. -/
def need {α : Type} (e : Err) : Option α → Rd α
  | some a => .ok a
  | none => .error (.err e)

/-- `skip_whitespace_and_comments` (plCurve.c 1031-1054). -/
def skipWC : Bool → List Char → Option (List Char)
  | _, [] => none
  | cf, c :: t =>
    if c = '#' then skipWC true t
    else if c = '\n' ∧ cf = true then skipWC false t
    else if isSpace c = false ∧ cf = false then some (c :: t)
    else skipWC cf t

/-- `INT_MAX`. -/
def intMax : Nat := 2147483647

/-- Digits, as the number with this sign; a number that is no `int` is undefined behaviour. -/
def scanMag (neg : Bool) : List Char → Res (Option (Int × List Char))
  | [] => .ok none
  | c :: r =>
    if isDig c then
      let q := readDigits 0 (c :: r)
      if q.1 ≤ intMax then .ok (some (if neg then -(q.1 : Int) else q.1, q.2)) else .error .ub
    else .ok none

/-- `%d`. (`INT_MIN`, which `abs` could not handle, is left out with the numbers that are no `int`.) -/
def scanD (inp : List Char) : Res (Option (Int × List Char)) :=
  match skip inp with
  | '-' :: r => scanMag true r
  | '+' :: r => scanMag false r
  | r => scanMag false r

/-- One round of `scanints` (plCurve.c 1099-1130). -/
def scanInt (e : Err) (inp : List Char) : Rd (Int × List Char) := do
  let r ← need e (skipWC false inp)
  let q ← lift (scanD r)
  need e q

/-- `scanints` of one number, `n` times. -/
def scanInts (e : Err) : Nat → List Char → Rd (List Int × List Char)
  | 0, inp => .ok ([], inp)
  | n + 1, inp => do
    let a ← scanInt e inp
    let r ← scanInts e n a.2
    .ok (a.1 :: r.1, r.2)

/-- One round of `scandoubles` (plCurve.c 1061-1092). After `skip_whitespace_and_comments` there is no white space for
`%lf` to skip. -/
def scanDbl (N : NumFmt) (e : Err) (inp : List Char) : Rd (N.F × List Char) := do
  let r ← need e (skipWC false inp)
  need e (N.scan r)

/-- `scandoubles` of three numbers. -/
def scan3 (N : NumFmt) (e : Err) (inp : List Char) : Rd (V3 N × List Char) := do
  let a ← scanDbl N e inp
  let b ← scanDbl N e a.2
  let c ← scanDbl N e b.2
  .ok ((a.1, b.1, c.1), c.2)

/-- `get_comment` (plCurve.c 962-1023), with `comment_flag`, `skip_spaces` and `just_wrapped`: the comment, and what
is left of the file. -/
def getComment : Bool → Bool → Bool → List Char → List Char × List Char
  | _, _, _, [] => ([], [])
  | cf, ss, jw, c :: t =>
    if c = '#' then
      if cf then
        if jw then getComment cf true false t
        else
          let r := getComment cf false jw t
          (c :: r.1, r.2)
      else getComment true true jw t
    else if c = '\n' then
      if cf then
        let r := getComment cf true true t
        (' ' :: r.1, r.2)
      else getComment cf ss jw t
    else if isSpace c then
      if cf && !ss then
        let r := getComment cf true jw t
        (' ' :: r.1, r.2)
      else getComment cf ss jw t
    else if cf && !jw then
      let r := getComment cf false jw t
      (c :: r.1, r.2)
    else ([], c :: t)

/-- The string in the buffer `get_comment` returns. -/
def comment (inp : List Char) : List Char × List Char :=
  let r := getComment false false false inp
  (r.1.takeWhile (· ≠ '\x00'), r.2)

/-- `strstr`: the first place where the pattern is, to the end of the string. -/
def strstr (pat : List Char) : List Char → Option (List Char)
  | [] => if pat = [] then some [] else none
  | c :: t => if pat.isPrefixOf (c :: t) then some (c :: t) else strstr pat t

/-- `strtok` at work on a string: the part it has passed (blanks behind tokens replaced by NUL) and the rest. -/
structure Tok where
  passed : List Char
  todo : List Char

/-- `strtok(..., " ")`: the token. -/
def strtok (s : Tok) : Option (List Char × Tok) :=
  let t := s.todo.dropWhile (· = ' ')
  if t = [] then none
  else
    let w := t.takeWhile (· ≠ ' ')
    let r := t.dropWhile (· ≠ ' ')
    some (w, ⟨s.passed ++ s.todo.takeWhile (· = ' ') ++ w ++ (if r = [] then [] else ['\x00']), r.tail⟩)

/-- The string starting at `comment[parsed]`. Behind the terminator the buffer is not initialised. -/
def cstr (s : Tok) (parsed : Nat) : Res (List Char) :=
  let b := s.passed ++ s.todo
  if b.length < parsed then .error .ub else .ok ((b.drop parsed).takeWhile (· ≠ '\x00'))

/-- `n` conversions `%lf` by `sscanf`. -/
def sscanDbls (N : NumFmt) : Nat → List Char → Option (List N.F)
  | 0, _ => some []
  | n + 1, inp => do
    let a ← N.scan (skip inp)
    let r ← sscanDbls N n a.2
    some (a.1 :: r)

/-- `n` calls of `strtok`, `parsed` growing by the length of the token and one (plCurve.c 1339-1343 and like). -/
def stepOver : Nat → Tok → Nat → Rd (Tok × Nat)
  | 0, s, parsed => .ok (s, parsed)
  | n + 1, s, parsed => do
    let q ← need .badCstLine (strtok s)
    stepOver n q.2 (parsed + q.1.length + 1)

/-- An entry of `cst_list`: `none` if not initialised. -/
abbrev Entry (N : NumFmt) := Option (Kind × VV N)

/-- `cst_list_len` after the check that number `k` has room (plCurve.c 1315-1321). -/
def newLen (k len : Nat) : Nat := if k + 1 > len then 10 * ((k + 11) % 10) else len

/-- `realloc` of `cst_list`. (To no entries at all it may also fail, which the assertion behind it reports.) -/
def resize (tab : List (Entry N)) (n : Nat) : List (Entry N) := tab.take n ++ List.replicate (n - tab.length) none

/-- The kind named by a token, the number of its numbers (plCurve.c 1325, 1345, 1374). -/
def kindOf (w : List Char) : Option (Kind × Nat) :=
  if (strstr (str "Fixed") w).isSome then some (.fixed, 3)
  else if (strstr (str "Line") w).isSome then some (.line, 6)
  else if (strstr (str "Plane") w).isSome then some (.plane, 4)
  else none

/-- The vectors of a constraint from its numbers (plCurve.c 1325-1403). -/
def vectsOf (N : NumFmt) : List N.F → VV N
  | [a, b, c] => ((a, b, c), zero3 N)
  | [a, b, c, d] => ((a, b, c), (d, N.zero, N.zero))
  | [a, b, c, d, e, f] => ((a, b, c), (d, e, f))
  | _ => (zero3 N, zero3 N)

/-- A round of the loop reading constraints (plCurve.c 1282-1413), with `place` moved to the front of the buffer: the
table and the buffer afterwards. -/
def readCst (tab : List (Entry N)) (buf : List Char) : Rd (List (Entry N) × List Char) := do
  let q1 ← need .badCstLine (strtok ⟨[], buf⟩)
  let q2 ← need .badCstLine (strtok q1.2)
  let n ← lift (scanD q2.1)
  let n ← need .badCstNum n
  if n.1 < 1 then .error (.err .badCstNum)
  else
    let k := n.1.toNat
    let tab := if newLen k tab.length = tab.length then tab else resize tab (newLen k tab.length)
    let q3 ← need .badCstLine (strtok q2.2)
    let parsed := (q1.1.length + 1) + (q2.1.length + 1) + (q3.1.length + 1)
    let kd ← need .badCstKind (kindOf q3.1)
    let _ ← lift (rd tab k)
    let txt ← lift (cstr q3.2 parsed)
    let xs ← need .badCstNums (sscanDbls N kd.2 txt)
    let tab ← lift (wr tab k (some (kd.1, vectsOf N xs)))
    let q4 ← stepOver kd.2 q3.2 parsed
    let buf ← lift (cstr q4.1 q4.2)
    .ok (tab, buf)

/-- The loop reading constraints (plCurve.c 1280-1413). Each round shortens the buffer, so its length in rounds is
enough. -/
def readCsts : Nat → List (Entry N) → List Char → Rd (List (Entry N))
  | 0, tab, _ => .ok tab
  | f + 1, tab, buf =>
    match strstr (str "Constraint ") buf with
    | none => .ok tab
    | some place => do
      let r ← readCst tab place
      readCsts f r.1 r.2

/-- `cst_list[k]`. -/
def entry (tab : List (Entry N)) (k : Int) : Res (Kind × VV N) :=
  if k < 0 then .error .ub
  else do
    let e ← rd tab k.toNat
    match e with
    | none => .error .ub
    | some e => .ok e

/-- The constraint number behind a vertex (plCurve.c 1434-1451). -/
def vertCst (com : List Char) : Rd Int :=
  match strstr (str "Cst: ") com with
  | none => .ok 0
  | some place => do
    let q ← need .badCstLine (strtok ⟨[], place⟩)
    let txt ← lift (cstr q.2 5)
    let n ← lift (scanD txt)
    let n ← need .badCstNum n
    .ok n.1

/-- `plc_set_constraint` on vertices `from` to `to-1` of component `i`, with what `cst_list[k]` says. -/
def setRun (tab : List (Entry N)) (nvs : List Nat) (i : Nat) (frm to : Nat) (k : Int) (cst : List (Cst (VV N))) :
    Rd (List (Cst (VV N))) := do
  let e ← lift (entry tab k)
  lift (Cst.set nvs cst i frm ((to : Int) - frm) e.1 e.2)

/-- The end of a run of vertices (plCurve.c 1453-1457 and 1462-1465): nothing to do after number 0. -/
def endRun (tab : List (Entry N)) (nvs : List Nat) (i : Nat) (frm to : Nat) (prev k : Int) (cst : List (Cst (VV N))) :
    Rd (List (Cst (VV N))) := if prev ≠ 0 then setRun tab nvs i frm to k cst else .ok cst

/-- The loop over the vertices of component `i` (plCurve.c 1420-1466): `n` vertices are left, `j` read; `prev` and
`pv` are `prev_cst_num` and `prev_cst_vert`, `cur` is `cst_num`. -/
def readVerts (tab : List (Entry N)) (nvs : List Nat) (i : Nat) :
    Nat → Nat → Int → Nat → Int → List (Cst (VV N)) → List Char → Rd (List (V3 N) × List (Cst (VV N)) × List Char)
  | 0, j, prev, pv, cur, cst, inp => do
    let cst ← endRun tab nvs i pv j prev cur cst
    .ok ([], cst, inp)
  | n + 1, j, prev, pv, _, cst, inp => do
    let v ← scan3 N .badVertLine inp
    let com := comment v.2
    let k ← vertCst com.1
    if k ≠ prev then
      let cst ← endRun tab nvs i pv j prev prev cst
      let r ← readVerts tab nvs i n (j + 1) k j k cst com.2
      .ok (v.1 :: r.1, r.2)
    else
      let r ← readVerts tab nvs i n (j + 1) prev pv k cst com.2
      .ok (v.1 :: r.1, r.2)

/-- The loop over the components (plCurve.c 1417-1467) from number `i` on. -/
def readComps (tab : List (Entry N)) (nvs : List Nat) :
    Nat → List Nat → List (Cst (VV N)) → List Char → Rd (List (List (V3 N)) × List (Cst (VV N)) × List Char)
  | _, [], cst, inp => .ok ([], cst, inp)
  | i, n :: ns, cst, inp => do
    let a ← readVerts tab nvs i n 0 0 0 0 cst inp
    let r ← readComps tab nvs (i + 1) ns a.2.1 a.2.2
    .ok (a.1 :: r.1, r.2)

/-- `plc_fix_wrap` (plCurve.c 1137-1156) on a component. With one vertex, `vt[1]` is `vt[nv]` and `vt[nv-2]` is
`vt[-1]`. -/
def fixWrap (s : Strand N) : Strand N :=
  let open' := s.isOpen || decide (s.vt.length < 3)
  if open' then
    let lo := if s.vt.length = 1 then s.hi else s.vt.getD 1 (zero3 N)
    let hi := if s.vt.length = 1 then lo else s.vt.getD (s.vt.length - 2) (zero3 N)
    { s with isOpen := true, lo := lo, hi := hi }
  else { s with lo := s.vt.getD (s.vt.length - 1) (zero3 N), hi := s.vt.getD 0 (zero3 N) }

/-- The colours of a component (plCurve.c 1477-1490). -/
def readCols (N : NumFmt) : Nat → List Char → Rd (List (Col N) × List Char)
  | 0, inp => .ok ([], inp)
  | n + 1, inp => do
    let a ← scan3 N .badColor inp
    let b ← scanDbl N .badColor a.2
    let r ← readCols N n b.2
    .ok ((a.1.1, a.1.2.1, a.1.2.2, b.1) :: r.1, r.2)

/-- The colours of all components. -/
def readAllCols (N : NumFmt) : List Nat → List Char → Rd (List (List (Col N)))
  | [], _ => .ok []
  | n :: ns, inp => do
    let a ← readCols N n inp
    let r ← readAllCols N ns a.2
    .ok (a.1 :: r)

/-- `fscanf(file, " VECT ")`: `none` if it returns `EOF`; otherwise what is left of the file, whether or not the
keyword was there. -/
def matchLit : List Char → List Char → Option (List Char)
  | [], inp => some (skip inp)
  | _ :: _, [] => none
  | p :: ps, c :: t => if c = p then matchLit ps t else some (c :: t)

/-- The components of the new curve, wrap-around vertices zero (`plc_new`, plCurve.c 67-121), with the vertices and
colours read. -/
def strands : List Int → List (List (V3 N)) → List (List (Col N)) → List (Strand N)
  | n :: ns, v :: vs, c :: cs => ⟨decide (0 ≤ n), v, c, zero3 N, zero3 N⟩ :: strands ns vs cs
  | _, _, _ => []

/-- The assertions of `plc_new` (plCurve.c 77-83 and 92). -/
def newOk : List Nat → List Int → Bool
  | n :: ns, c :: cs => decide (0 ≤ c) && decide (c ≤ (n : Int)) && decide (1 ≤ n) && newOk ns cs
  | _, _ => true

/-- `plc_read` (plCurve.c 1164-1497). -/
def read (N : NumFmt) (inp : List Char) : Rd (Curve N) := do
  let inp ← need .noVect (matchLit (str "VECT") (skip inp))
  let h ← scanInts .badCvcLine 3 inp
  let ncomp := h.1.getD 0 0
  if ncomp ≤ 0 then .error (.err .badCmpNum)
  else
    let nv ← scanInts .badCvrtLine ncomp.toNat h.2
    let nvs := nv.1.map Int.natAbs
    let cc ← scanInts .badClrLine ncomp.toNat nv.2
    lift (assertC (newOk nvs cc.1))
    let com := comment cc.2
    let tab ← readCsts (com.1.length + 1) (List.replicate 2 (some (.unconstrained, zero3 N, zero3 N))) com.1
    let v ← readComps tab nvs 0 nvs [] com.2
    let cols ← readAllCols N (cc.1.map Int.toNat) v.2.2
    .ok ⟨(strands nv.1 v.1 cols).map fixWrap, v.2.1⟩

end Plc.Vect
