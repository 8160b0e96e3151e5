import Verif.Model.Basic

/-!
# Model of the diagram store (`src/pd_storage.c`)

The store is a Judy array of Judy arrays. A JudySL array is an ordered map from byte strings
to machine words, a JudyL array an ordered map from machine words to machine words; here both are
association lists in increasing order of their keys. What the Judy macros do is taken from the
Judy manual: `JSLI`/`JLI` find or insert a key with value 0, `JSLG` looks a key up, `JSLF`/`JLF` find
the first key not below the given one, `JSLN`/`JLN` the first key above it, `JLC` counts.

What the store does with diagrams (packing, unpacking, comparing) is a parameter: see `Kit`.
A uid is a natural number (64 bits in C). Memory management is left out.
-/

namespace Plc.Store

/-- A hash: the bytes of a C string, without the final zero. -/
abbrev Hash := List Nat

/-- `pd_equivalence_t` (plcTopology.h). -/
inductive Mode where
  | none
  | isomorphism
  | isotopy
  deriving DecidableEq, Repr

/-- The functions on diagrams that the store calls: reading `pd->hash`, `pd_pack`, `pd_unpack`,
`pd_isomorphic`, `pd_diagram_isotopic`. -/
structure Kit (Pd Packed : Type) where
  hash : Pd → Hash
  pack : Pd → Res Packed
  unpack : Packed → Res Pd
  isomorphic : Pd → Pd → Res Bool
  isotopic : Pd → Pd → Res Bool

/-- A JudyL array of packed diagrams, by uid. -/
abbrev Bucket (Packed : Type) := List (Nat × Packed)

/-- `pdstorage_struct` (pd_storage.c 47-57). `cur` stands for `iter_PValue_hash`: the hash whose bucket it
points to. -/
structure Stor (Packed : Type) where
  arr : List (Hash × Bucket Packed)
  nelts : Nat
  iterHash : Hash
  iterUid : Nat
  cur : Option Hash
  deriving DecidableEq, Repr

variable {Pd Packed : Type}

/-- `pdint_init_pdstor_iterstate` (pd_storage.c 61-66). -/
def Stor.reset (s : Stor Packed) : Stor Packed := { s with iterHash := [], iterUid := 0, cur := none }

/-- `pd_new_pdstor` (pd_storage.c 68-84). -/
def newStor : Stor Packed := ⟨[], 0, [], 0, none⟩

/-- `pd_stor_nelts` (pd_storage.c 159-163). -/
def nelts : Option (Stor Packed) → Nat
  | none => 0
  | some s => s.nelts

/-- `JSLG`. -/
def jslg : List (Hash × Bucket Packed) → Hash → Option (Bucket Packed)
  | [], _ => none
  | (h, b) :: l, k => if k = h then some b else jslg l k

/-- `JSLI` together with the final `*PValue_hash = PJLArray`: the array with the value `b` at the key `k`,
which is inserted when it is new. -/
def jsli (l : List (Hash × Bucket Packed)) (k : Hash) (b : Bucket Packed) : List (Hash × Bucket Packed) :=
  match l with
  | [] => [(k, b)]
  | (h, c) :: l => if k = h then (h, b) :: l else if k < h then (k, b) :: (h, c) :: l else (h, c) :: jsli l k b

/-- `JLI` of a new key: its value and the array with the key inserted. `none`: the key was there. -/
def jli (b : Bucket Packed) (uid : Nat) (p : Packed) : Option (Bucket Packed) :=
  match b with
  | [] => some [(uid, p)]
  | (u, q) :: b =>
    if uid = u then none
    else if uid < u then some ((uid, p) :: (u, q) :: b)
    else (jli b uid p).map ((u, q) :: ·)

/-- The comparison in the search loop (pd_storage.c 216-217). -/
def same (k : Kit Pd Packed) (m : Mode) (a b : Pd) : Res Bool :=
  match m with
  | .none => .ok false
  | .isomorphism => k.isomorphic a b
  | .isotopy => k.isotopic a b

/-- The search loop (pd_storage.c 202-248) over a bucket; the result is the uid of an equivalent
diagram, or else the last uid seen. -/
def findLoop (k : Kit Pd Packed) (m : Mode) (pd : Pd) : Bucket Packed → Nat → Res (Sum Nat Nat)
  | [], last => .ok (.inr last)
  | (u, p) :: b, _ =>
    if m ≠ .none then do
      let st ← k.unpack p
      let r ← same k m st pd
      if r then .ok (.inl u) else findLoop k m pd b u
    else findLoop k m pd b u

/-- Looking for an equivalent diagram in the bucket, which may be empty (pd_storage.c 196-257). With no
bucket the new uid is 1. -/
def scan (k : Kit Pd Packed) (m : Mode) (pd : Pd) : Bucket Packed → Res (Sum Nat Nat)
  | [] => .ok (.inr 0)
  | b => findLoop k m pd b 0

/-- `pd_addto_pdstor` (pd_storage.c 165-314). Returns the store and the uid written to `pd->uid`. -/
def addto (k : Kit Pd Packed) (m : Mode) (s : Stor Packed) (pd : Pd) : Res (Stor Packed × Nat) := do
  let s := s.reset
  let b := (jslg s.arr (k.hash pd)).getD []
  let r ← scan k m pd b
  match r with
  | .inl uid => .ok ({ s with arr := jsli s.arr (k.hash pd) b }, uid)
  | .inr last => do
    let uid := last + 1
    let p ← k.pack pd
    match jli b uid p with
    | none => .error .die
    | some b' => .ok ({ s with arr := jsli s.arr (k.hash pd) b', nelts := (s.nelts + 1) % 2 ^ 32 }, uid)

/-- A history of insertions: the store after it and the uids given. -/
def addAll (k : Kit Pd Packed) (m : Mode) (s : Stor Packed) : List Pd → Res (Stor Packed × List Nat)
  | [] => .ok (s, [])
  | pd :: l => do
    let (s, u) ← addto k m s pd
    let (s, us) ← addAll k m s l
    .ok (s, u :: us)

/-- `JSLF`/`JSLN`: the first key not below (`strict = false`) or above (`strict = true`) the given one. -/
def jslnext (strict : Bool) : List (Hash × Bucket Packed) → Hash → Option (Hash × Bucket Packed)
  | [], _ => none
  | (h, b) :: l, k => if k < h ∨ (strict = false ∧ k = h) then some (h, b) else jslnext strict l k

/-- `JLF`/`JLN`. -/
def jlnext (strict : Bool) : Bucket Packed → Nat → Option (Nat × Packed)
  | [], _ => none
  | (u, p) :: b, k => if k < u ∨ (strict = false ∧ k = u) then some (u, p) else jlnext strict b k

/-- `pd_stor_firstelt` (pd_storage.c 316-355). The element is returned with its uid. -/
def firstelt (k : Kit Pd Packed) (s : Stor Packed) : Res (Stor Packed × Option (Pd × Nat)) := do
  let s := s.reset
  match jslnext false s.arr [] with
  | none => .ok (s, none)
  | some (h, b) =>
    match jlnext false b 0 with
    | none => .error .die
    | some (u, p) => do
      let pd ← k.unpack p
      .ok ({ s with iterHash := h, cur := some h, iterUid := u }, some (pd, u))

/-- `pd_stor_nextelt` (pd_storage.c 357-424). -/
def nextelt (k : Kit Pd Packed) (s : Stor Packed) : Res (Stor Packed × Option (Pd × Nat)) :=
  match s.cur with
  | none => .error .die
  | some c => do
    assertC (decide (s.iterHash ≠ []))
    match jslg s.arr c with
    | none => .error .ub
    | some b =>
      match jlnext true b s.iterUid with
      | some (u, p) => do
        let pd ← k.unpack p
        .ok ({ s with iterUid := u }, some (pd, u))
      | none =>
        match jslnext true s.arr s.iterHash with
        | none => .ok (s.reset, none)
        | some (h, b) =>
          match jlnext false b 0 with
          | none => .error .die
          | some (u, p) => do
            let pd ← k.unpack p
            .ok ({ s with iterHash := h, cur := some h, iterUid := u }, some (pd, u))

/-- The elements visited by `pd_stor_nextelt` until it returns `NULL`, at most `fuel` of them. -/
def restElts (k : Kit Pd Packed) : Nat → Stor Packed → Res (Stor Packed × List (Pd × Nat))
  | 0, s => .ok (s, [])
  | f + 1, s => do
    let (s, e) ← nextelt k s
    match e with
    | none => .ok (s, [])
    | some e => do
      let (s, l) ← restElts k f s
      .ok (s, e :: l)

/-- The loop `for(pd = pd_stor_firstelt(s); pd != NULL; pd = pd_stor_nextelt(s))` (pd_storage.c 623),
cut off after `fuel` more elements. -/
def visit (k : Kit Pd Packed) (fuel : Nat) (s : Stor Packed) : Res (Stor Packed × List (Pd × Nat)) := do
  let (s, e) ← firstelt k s
  match e with
  | none => .ok (s, [])
  | some e => do
    let (s, l) ← restElts k fuel s
    .ok (s, e :: l)

/-- The search loop of `pd_search_pdstor_by_isomorphism` (pd_storage.c 456-475). `isos` is `pd_build_isos`,
the list of isomorphisms found. -/
def searchLoop {Iso : Type} (k : Kit Pd Packed) (isos : Pd → Pd → Res (List Iso)) (pd : Pd) :
    Bucket Packed → Res (Option (Pd × Nat × List Iso))
  | [] => .ok none
  | (u, p) :: b => do
    let st ← k.unpack p
    let l ← isos pd st
    if l.length ≠ 0 then .ok (some (st, u, l)) else searchLoop k isos pd b

/-- `pd_search_pdstor_by_isomorphism` (pd_storage.c 426-486). -/
def search {Iso : Type} (k : Kit Pd Packed) (isos : Pd → Pd → Res (List Iso)) (s : Stor Packed) (pd : Pd) :
    Res (Option (Pd × Nat × List Iso)) :=
  match jslg s.arr (k.hash pd) with
  | none => .ok none
  | some [] => .error .die
  | some b => searchLoop k isos pd b

/-- `pd_stor_stats` (pd_storage.c 489-522): number of hashes and number of elements, as 32-bit numbers. -/
def stats (s : Stor Packed) : Nat × Nat :=
  s.arr.foldl (fun c hb => ((c.1 + 1) % 2 ^ 32, (c.2 + hb.2.length) % 2 ^ 32)) (0, 0)

end Plc.Store
