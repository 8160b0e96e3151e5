import Verif.Model.Core

/-!
# Writing and reading diagrams (`src/pdcode.c`)

Text is a list of characters. `printf` and `scanf` are modelled for the conversions used.
-/

namespace Plc.Io

open Plc.Cmp Plc.Core

/-- The part of `pd_code_t` that is written and read: `ncross`, `nedges`, `ncomps`, `nfaces`
are the lengths. -/
structure Pd where
  hash : List Char
  uid : Nat
  cross : List Cross
  edge : List Edge
  comp : List Comp
  face : List Face
  deriving DecidableEq, Repr

/-- `MAXVERTS`, `MAXEDGES`, `MAXCOMPONENTS`, `MAXFACES`. -/
structure Caps where
  verts : Nat
  edges : Nat
  comps : Nat
  faces : Nat

/-- The capacities set by `pd_code_new` (pdcode.c 45-79). -/
def capsNew (mv : Nat) : Caps :=
  let v := max mv 2
  { verts := v, edges := 2 * v + 1, comps := v / 2 + 2, faces := v + 2 }

/-! ## printf -/

/-- Decimal digits of `n` in front of `acc`. -/
def digitsF : Nat → Nat → List Char → List Char
  | 0, _, acc => acc
  | f + 1, n, acc =>
    if n / 10 = 0 then Char.ofNat (48 + n % 10) :: acc
    else digitsF f (n / 10) (Char.ofNat (48 + n % 10) :: acc)

/-- `%u`, `%lu`. -/
def dec (n : Nat) : List Char := digitsF (n + 1) n []

/-- Text of a string constant. -/
abbrev str (s : String) : List Char := s.toList

/-- A crossing line (pdcode.c 2920-2934); `pd_print_or` prints `+` or `-` (an unset sign
is not printed). -/
def writeCross (c : Cross) : List Char :=
  dec c.e0 ++ str " " ++ dec c.e1 ++ str " " ++ dec c.e2 ++ str " " ++ dec c.e3 ++ str " " ++
    (match c.sign with | .pos => str "+" | .neg => str "-" | .unset => []) ++ str "\n"

/-- An edge line (pdcode.c 2944-2946). -/
def writeEdge (e : Edge) : List Char :=
  dec e.tail ++ str "," ++ dec e.tailpos ++ str " -> " ++ dec e.head ++ str "," ++ dec e.headpos ++ str " \n"

/-- The edges of a component (pdcode.c 2958-2962). -/
def writeNums : List Nat → List Char
  | [] => []
  | e :: l => dec e ++ str " " ++ writeNums l

/-- A component line (pdcode.c 2956-2965). -/
def writeComp (c : Comp) : List Char :=
  dec c.edge.length ++ str " : " ++ writeNums c.edge ++ str "tag " ++ [Char.ofNat c.tag] ++ str "\n"

/-- The edges of a face (pdcode.c 2977-2991). -/
def writeSigned : List (Nat × Or) → List Char
  | [] => []
  | (e, o) :: l => (if o = .pos then str "+ " else str "- ") ++ dec e ++ str " " ++ writeSigned l

/-- A face line (pdcode.c 2975-2993). -/
def writeFace (f : Face) : List Char :=
  dec f.edge.length ++ str " : " ++ writeSigned (f.edge.zip f.orient) ++ str "\n"

/-- `pd_write` (pdcode.c 2877-2997). -/
def writePd (caps : Caps) (pd : Pd) : List Char :=
  if pd.cross.length > caps.verts ∨ pd.edge.length > caps.edges ∨ pd.comp.length > caps.comps ∨
      pd.face.length > caps.faces then str "INVALID PD CODE\n"
  else
    str "pd " ++ pd.hash ++ str " " ++ dec pd.uid ++ str "\n" ++
    (str "nv " ++ dec pd.cross.length ++ str "\n" ++ (pd.cross.flatMap writeCross ++
    (str "ne " ++ dec pd.edge.length ++ str "\n" ++ (pd.edge.flatMap writeEdge ++
    (str "nc " ++ dec pd.comp.length ++ str "\n" ++ (pd.comp.flatMap writeComp ++
    (str "nf " ++ dec pd.face.length ++ str "\n" ++ pd.face.flatMap writeFace)))))))

/-! ## scanf -/

/-- `isspace`. -/
def isSpace (c : Char) : Bool :=
  c = ' ' || c = '\n' || c = '\t' || c = '\r' || c.toNat = 11 || c.toNat = 12

/-- `[0-9]`. -/
def isDig (c : Char) : Bool := 48 ≤ c.toNat && c.toNat ≤ 57

/-- The characters of the scan set `[a-zA-Z0-9+/]`. -/
def isHash (c : Char) : Bool :=
  (97 ≤ c.toNat && c.toNat ≤ 122) || (65 ≤ c.toNat && c.toNat ≤ 90) || isDig c || c = '+' || c = '/'

/-- White space in a format. -/
def skip (inp : List Char) : List Char := inp.dropWhile isSpace

/-- Digits, most significant first, continuing the number `v`. -/
def readDigits (v : Nat) : List Char → Nat × List Char
  | [] => (v, [])
  | c :: r => if isDig c then readDigits (10 * v + (c.toNat - 48)) r else (v, c :: r)

/-- `ULONG_MAX`. -/
def ulongMax : Nat := 18446744073709551615

/-- A number that must start here. -/
def scanNum : List Char → Option (Nat × List Char)
  | [] => none
  | c :: r => if isDig c then
      let q := readDigits 0 (c :: r)
      some (min q.1 ulongMax, q.2)
    else none

/-- `%lu`, as `strtoul` reads: white space, an optional sign (a negative number is taken
modulo 2^64), digits; too large a number gives `ULONG_MAX`. -/
def scanLu (inp : List Char) : Option (Nat × List Char) :=
  match skip inp with
  | '+' :: r => scanNum r
  | '-' :: r => (scanNum r).map fun q => ((ulongMax + 1 - q.1) % (ulongMax + 1), q.2)
  | r => scanNum r

/-- Directives of a format. -/
inductive Dir where
  | ws
  | lit (c : Char)
  | lu
  | chr
  | set (width : Nat) (p : Char → Bool)
  | word (width : Nat)

/-- A converted value. -/
inductive Val where
  | num (n : Nat)
  | txt (s : List Char)
  deriving DecidableEq, Repr

/-- The longest prefix of at most `w` characters satisfying `p`. -/
def takeSet (p : Char → Bool) : Nat → List Char → List Char × List Char
  | 0, r => ([], r)
  | _ + 1, [] => ([], [])
  | w + 1, c :: r => if p c then
      let q := takeSet p w r
      (c :: q.1, q.2)
    else ([], c :: r)

/-- `scanf`: the converted values (their number is the return value; an input failure
before the first conversion returns -1, which the callers do not distinguish) and what is
left of the input. Where a conversion fails, how much of the offending item has been consumed
is not modelled: the callers give up. -/
def scanf : List Dir → List Char → List Val × List Char
  | [], inp => ([], inp)
  | .ws :: f, inp => scanf f (skip inp)
  | .lit c :: f, inp =>
    match inp with
    | [] => ([], [])
    | d :: r => if d = c then scanf f r else ([], d :: r)
  | .lu :: f, inp =>
    match scanLu inp with
    | none => ([], inp)
    | some (v, r) =>
      let q := scanf f r
      (.num v :: q.1, q.2)
  | .chr :: f, inp =>
    match inp with
    | [] => ([], [])
    | c :: r =>
      let q := scanf f r
      (.txt [c] :: q.1, q.2)
  | .set w p :: f, inp =>
    let t := takeSet p w inp
    if t.1 = [] then ([], inp)
    else
      let q := scanf f t.2
      (.txt t.1 :: q.1, q.2)
  | .word w :: f, inp =>
    let t := takeSet (fun c => !isSpace c) w (skip inp)
    if t.1 = [] then ([], inp)
    else
      let q := scanf f t.2
      (.txt t.1 :: q.1, q.2)

/-- Literal characters of a format. -/
def lits (s : String) : List Dir := s.toList.map .lit

/-! ## Parsers: a fault, `return NULL`, or a value with the rest of the input. -/

/-- Parsers. -/
def P (α : Type) := List Char → Res (Option (α × List Char))

/-- Sequencing. -/
def P.bind {α β : Type} (x : P α) (f : α → P β) : P β := fun inp =>
  match x inp with
  | .error e => .error e
  | .ok none => .ok none
  | .ok (some (a, r)) => f a r

instance : Monad P where
  pure a := fun inp => .ok (some (a, inp))
  bind := P.bind

/-- `return NULL`. -/
def null {α : Type} : P α := fun _ => .ok none

/-- A fault. -/
def fault {α : Type} (e : Fault) : P α := fun _ => .error e

/-- A computation that does not read. -/
def lift {α : Type} (x : Res α) : P α := fun inp => x.map fun a => some (a, inp)

/-- One number: `if (fscanf(infile, fmt, &n) != 1) { … return NULL; }`. -/
def scan1 (fmt : List Dir) : P Nat := fun inp =>
  match scanf fmt inp with
  | ([.num a], r) => .ok (some (a, r))
  | _ => .ok none

/-- `(pd_idx_t)`, `(pd_pos_t)`: truncation to 32 bits. -/
def idx (n : Nat) : Nat := n % 4294967296

/-- The optional sign of a crossing line (pdcode.c 3321-3337). -/
def readSign : P Or := fun inp =>
  match inp with
  | '+' :: r => .ok (some (.pos, r))
  | '-' :: r => .ok (some (.neg, r))
  | r => .ok (some (.unset, r))

/-- " %lu " -/
def fNum : List Dir := [.ws, .lu, .ws]

/-- The crossing lines (pdcode.c 3301-3339). -/
def readCrosses : Nat → P (List Cross)
  | 0 => pure []
  | n + 1 => do
    let a ← scan1 fNum
    let b ← scan1 fNum
    let c ← scan1 fNum
    let d ← scan1 fNum
    let s ← readSign
    let l ← readCrosses n
    pure (⟨idx a, idx b, idx c, idx d, s⟩ :: l)

/-- " %lu,%lu -> %lu,%lu " -/
def fEdge : List Dir :=
  [.ws, .lu, .lit ',', .lu, .ws, .lit '-', .lit '>', .ws, .lu, .lit ',', .lu, .ws]

/-- One edge line (pdcode.c 3372-3391). -/
def readEdge : P Edge := fun inp =>
  match scanf fEdge inp with
  | ([.num a, .num b, .num c, .num d], r) => .ok (some (⟨idx c, idx d, idx a, idx b⟩, r))
  | _ => .ok none

/-- The edge lines (pdcode.c 3370-3392). -/
def readEdges : Nat → P (List Edge)
  | 0 => pure []
  | n + 1 => do
    let e ← readEdge
    let l ← readEdges n
    pure (e :: l)

/-- The edges of a component (pdcode.c 3461-3476). -/
def readNums : Nat → P (List Nat)
  | 0 => pure []
  | n + 1 => do
    let a ← scan1 fNum
    let l ← readNums n
    pure (idx a :: l)

/-- " %lu : " -/
def fCount : List Dir := [.ws, .lu, .ws, .lit ':', .ws]

/-- The tag of a component (pdcode.c 3478-3507): `next` is `next_tag`; the result is the tag
and the new `next_tag`. At the end of the file `testchar` is not initialised. -/
def readTag (next : Nat) : P (Nat × Nat) := fun inp =>
  match skip inp with
  | [] => .error .ub
  | 't' :: r =>
    match scanf ([.ws] ++ lits "tag" ++ [.ws, .chr, .ws]) ('t' :: r) with
    | ([.txt [c]], r) => .ok (some ((c.toNat, next), r))
    | _ => .ok none
  | r => .ok (some ((next, next + 1), r))

/-- The component lines (pdcode.c 3422-3509). -/
def readComps (maxedges : Nat) : Nat → Nat → P (List Comp)
  | 0, _ => pure []
  | n + 1, next => do
    let k ← scan1 fCount
    if idx k > maxedges then null
    else do
      let es ← readNums (idx k)
      let t ← readTag next
      let l ← readComps maxedges n t.2
      pure (⟨es, t.1⟩ :: l)

/-- One signed edge of a face (pdcode.c 3577-3607). The `s` behind `%1[+-]` is a literal
character of the format. -/
def readSigned1 : P (Nat × Or) := fun inp =>
  match scanf [.ws, .set 1 (fun c => c = '+' || c = '-'), .lit 's', .ws] inp with
  | ([.txt o], r) =>
    match scanf fNum r with
    | ([.num a], r) => .ok (some ((idx a, if o = ['+'] then .pos else .neg), r))
    | _ => .ok none
  | _ => .ok none

/-- The signed edges of a face. -/
def readSigned : Nat → P (List (Nat × Or))
  | 0 => pure []
  | n + 1 => do
    let a ← readSigned1
    let l ← readSigned n
    pure (a :: l)

/-- The face lines (pdcode.c 3541-3610). -/
def readFaces (maxedges : Nat) : Nat → P (List Face)
  | 0 => pure []
  | n + 1 => do
    let k ← scan1 fCount
    if idx k > maxedges then null
    else do
      let es ← readSigned (idx k)
      let l ← readFaces maxedges n
      pure (⟨es.map (·.1), es.map (·.2)⟩ :: l)

/-- `PD_HASHSIZE`. -/
def HASHSIZE : Nat := 32

/-- `fgets(pd_line,4096,infile)`: at most `n` characters, up to and including a newline. -/
def takeLine : Nat → List Char → List Char × List Char
  | 0, r => ([], r)
  | _ + 1, [] => ([], [])
  | n + 1, c :: r => if c = '\n' then ([c], r) else
      let q := takeLine n r
      (c :: q.1, q.2)

/-- The three readings of the first line (pdcode.c 3153-3225): hash and uid. Thirty-two
characters and the terminating 0 do not fit in `hash`. `uid` of the last case is
`PD_UNSET_UID`. -/
def readHead (line : List Char) : Res (Option (List Char × Nat)) :=
  match (scanf ([.ws] ++ lits "pd" ++ [.ws, .set HASHSIZE isHash, .ws, .lu, .ws]) line).1 with
  | [.txt h, .num u] => if h.length < HASHSIZE then .ok (some (h, u)) else .error .ub
  | [.txt h] => if h.length < HASHSIZE then readHead2 line else .error .ub
  | _ => readHead2 line
where
  /-- The second and third reading. -/
  readHead2 (line : List Char) : Res (Option (List Char × Nat)) :=
    match (scanf ([.ws] ++ lits "pd" ++ [.ws, .word 4096, .ws, .lu, .ws]) line).1 with
    | [_, _] => .ok none
    | [_] => .ok none
    | _ =>
      match (scanf [.ws, .word 32, .ws] line).1 with
      | [.txt s] => if s = str "pd" then .ok (some (str "unset", ulongMax)) else .ok none
      | _ => .ok none

/-- The loop that looks for the tag of a diagram without crossings (pdcode.c 3254-3281); at
the end of the file the program exits. -/
def findTag : List Char → Res (List Char)
  | 't' :: 'a' :: 'g' :: r => .ok r
  | _ :: r => findTag r
  | [] => .error .die

/-- Does the text contain "unset"? (`strstr`, pdcode.c 3615) -/
def hasUnset : List Char → Bool
  | [] => false
  | c :: r => (str "unset").isPrefixOf (c :: r) || hasUnset r

/-- What `pd_read` returns. -/
inductive Read where
  /-- `pd_build_unknot(0)` with this tag. -/
  | unknot (tag : Nat)
  | code (pd : Pd)
  deriving DecidableEq, Repr

/-- The case without crossings (pdcode.c 3245-3290). -/
def readUnknot : P Read := fun inp => do
  let r ← findTag inp
  match scanf [.ws, .chr, .ws] r with
  | ([.txt [c]], r) => .ok (some (.unknot c.toNat, r.dropWhile (· ≠ 'p')))
  | (_, r) => .ok (some (.unknot 65, r.dropWhile (· ≠ 'p')))

/-- " nv %lu ", " ne %lu ", " nf %lu " -/
def fHead (s : String) : List Dir := [.ws] ++ lits s ++ [.ws, .lu, .ws]

/-- The rest (pdcode.c 3292-3622), for `n > 0` crossings. `pd_ok` is the parameter `ok`, the hash
computed by `pd_regenerate_hash` is the parameter `rehash`. This is `pd_read`, where `err` is
NULL and a diagram that is not ok fails an assertion. -/
def readBody (qs : QSort) (ok : Pd → Bool) (rehash : Pd → List Char) (hash : List Char) (uid n : Nat) : P Read := do
  let caps := capsNew n
  let cross ← readCrosses n
  let ne ← scan1 (fHead "ne")
  if idx ne > caps.edges then null
  else do
    let edge ← readEdges (idx ne)
    let nc ← scan1 (lits "nc" ++ [.ws, .lu, .ws])
    if idx nc > caps.comps then null
    else do
      let comp ← readComps caps.edges (idx nc) 65
      let nf ← scan1 (fHead "nf")
      if idx nf > caps.faces then null
      else do
        let face ← readFaces caps.edges (idx nf)
        let ce ← lift (regenCrossings qs cross edge)
        let pd : Pd := { hash := hash, uid := uid, cross := ce.1, edge := ce.2, comp := comp, face := face }
        lift (assertC (ok pd))
        pure (.code { pd with hash := if hasUnset pd.hash then rehash pd else pd.hash })

/-- `pd_read` (pdcode.c 3117-3626). -/
def readPd (qs : QSort) (ok : Pd → Bool) (rehash : Pd → List Char) : P Read := fun inp =>
  let l := takeLine 4095 (skip inp)
  if l.1 = [] then .ok none
  else
    match readHead l.1 with
    | .error e => .error e
    | .ok none => .ok none
    | .ok (some hu) =>
      (do
        let nv ← scan1 (fHead "nv")
        if idx nv = 0 then readUnknot else readBody qs ok rehash hu.1 hu.2 (idx nv) : P Read) l.2

end Plc.Io
