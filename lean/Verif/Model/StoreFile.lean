import Verif.Model.StoreKit

/-! # Stores in files (`src/pd_storage.c` 579-806) -/

namespace Plc.Store

open Plc.Io

/-- `pd_ok`, as `pd_read` calls it on a diagram in the buffers `pd_code_new(nv)`. A fault counts as `false`; either
ends the program. -/
def okReal (qs : QSort) (pd : Io.Pd) : Bool :=
  match Ok.pdOk qs (capsNew pd.cross.length) pd with
  | .ok b => b
  | .error _ => false

/-- `pd_regenerate_hash`, as `pd_read` calls it. `pd_read` calls it for diagrams that are ok; a fault gives no hash here. -/
def rehashReal (qs : QSort) (pd : Io.Pd) : List Char :=
  match HashGen.regenHash qs pd.cross.length pd.edge.length pd.face pd.comp with
  | .ok s => s
  | .error _ => []

/-- The loop that writes the elements (pd_storage.c 615-624, 665-676): the uid is replaced by the place in the file. -/
def writeElts : Nat → List Held → List Char
  | _, [] => []
  | uid, p :: l => writePd (capsNew p.1) { p.2 with uid := uid } ++ str "\n" ++ writeElts (uid + 1) l

/-- The header of `pd_write_pdstor` (pd_storage.c 606-609). -/
def header (claimed actual nhashes : Nat) : List Char :=
  str "pdstor \nnelts " ++ dec claimed ++ str "/" ++ dec actual ++ str " (claimed/actual) nhashes " ++ dec nhashes ++ str " \n\n"

/-- `pd_write_pdstor` (pd_storage.c 581-635): the store, whose iterator moves, and the text. The walk is cut off after
`fuel` elements. -/
def writeStor (qs : QSort) (bs : PermM.BSearch) (fuel : Nat) (s : Stor (List Nat)) : Res (Stor (List Nat) × List Char) := do
  let st := stats s
  let head := header (nelts (some s)) st.2 st.1
  if st.2 = 0 then .ok (s, head)
  else do
    let (s, l) ← visit (realKit qs bs) fuel s
    .ok (s, head ++ writeElts 0 (l.map (·.1)))

/-- "pdstor nelts %u/%u (claimed/actual) nhashes %u" (pd_storage.c 711) -/
def fStor : List Dir :=
  lits "pdstor" ++ [.ws] ++ lits "nelts" ++ [.ws, .lu] ++ lits "/" ++ [.lu, .ws] ++ lits "(claimed/actual)" ++ [.ws] ++
    lits "nhashes" ++ [.ws, .lu]

/-- "?/? (claimed/actual) nhashes %c" (pd_storage.c 724) -/
def fUnknown : List Dir :=
  lits "?/?" ++ [.ws] ++ lits "(claimed/actual)" ++ [.ws] ++ lits "nhashes" ++ [.ws, .chr]

/-- The header (pd_storage.c 706-754): the number of elements and the rest. `%u` keeps 32 bits. Without `PD_VERBOSE` the
two numbers of elements need not agree. Where the first `fscanf` fails the second goes on from where `Io.scanf` stops. -/
def readHeader (inp : List Char) : Option (Nat × List Char) :=
  match scanf fStor inp with
  | ([.num a, .num _, .num _], r) => some (a % 2 ^ 32, r)
  | (_, r) =>
    match scanf fUnknown r with
    | ([.txt ['?']], r) => some (2 ^ 32 - 1, r)
    | _ => none

/-- The loop that reads elements (pd_storage.c 758-793); the number is how many are missing. Nothing left stands for
`feof`: if the end of the file has been reached but not noticed, `pd_read` returns `NULL`, with the same result. A diagram
without crossings cannot be packed (see `Pack.pack`). -/
def readElts (qs : QSort) (bs : PermM.BSearch) (m : Mode) : Nat → Stor (List Nat) → List Char → Res (Option (Stor (List Nat)))
  | 0, s, _ => .ok (some s)
  | n + 1, s, inp =>
    if inp = [] then .ok none
    else
      match readPd qs (okReal qs) (rehashReal qs) inp with
      | .error e => .error e
      | .ok none => .ok none
      | .ok (some (.unknot _, _)) => .error .ub
      | .ok (some (.code pd, r)) => do
        let (s, _) ← addto (realKit qs bs) m s (pd.cross.length, pd)
        readElts qs bs m n s r

/-- `pd_read_pdstor` (pd_storage.c 695-806); `none` is `NULL`. -/
def readStor (qs : QSort) (bs : PermM.BSearch) (m : Mode) (inp : List Char) : Res (Option (Stor (List Nat))) :=
  match readHeader inp with
  | none => .ok none
  | some (n, r) => readElts qs bs m n newStor r

/-! ## Writing in several steps -/

/-- `pd_start_incremental_pdstor` (pd_storage.c 637-646): the new file. -/
def startInc : List Char :=
  str "pdstor\nnelts (in-progress)/(in-progress) (claimed/actual)\nnhashes (in-progress)\n\n"

/-- A file being written, with the totals the caller keeps. -/
structure Inc where
  file : List Char
  nhashes : Nat
  nelts : Nat
  deriving DecidableEq, Repr

/-- `pd_addto_incremental_pdstor` (pd_storage.c 648-679). -/
def addInc (qs : QSort) (bs : PermM.BSearch) (fuel : Nat) (f : Inc) (s : Stor (List Nat)) : Res Inc := do
  let st := stats s
  let (_, l) ← visit (realKit qs bs) fuel s
  .ok ⟨f.file ++ writeElts 0 (l.map (·.1)), (st.1 + f.nhashes) % 2 ^ 32, (st.2 + f.nelts) % 2 ^ 32⟩

/-- One call after the other. -/
def addsInc (qs : QSort) (bs : PermM.BSearch) (fuel : Nat) : Inc → List (Stor (List Nat)) → Res Inc
  | f, [] => .ok f
  | f, s :: l => do
    let f ← addInc qs bs fuel f s
    addsInc qs bs fuel f l

/-- `%013u`. -/
def dec13 (n : Nat) : List Char := List.replicate (13 - (dec n).length) '0' ++ dec n

/-- What `pd_finish_incremental_pdstor` writes (pd_storage.c 687-691). -/
def headerInc (nhashes nelts : Nat) : List Char :=
  str "pdstor\nnelts " ++ dec13 nelts ++ str "/" ++ dec13 nelts ++ str " (claimed/actual)\nnhashes " ++ dec13 nhashes ++ str "\n"

/-- `pd_finish_incremental_pdstor` (pd_storage.c 681-693) overwrites the start of the file. -/
def finishInc (f : Inc) : List Char :=
  let h := headerInc f.nhashes f.nelts
  h ++ f.file.drop h.length

end Plc.Store
