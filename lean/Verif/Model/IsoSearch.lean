import Verif.Model.IterOps
import Verif.Model.Isos
import Verif.Model.Ok

/-! # The search for isomorphisms (`src/pd_isomorphisms.c`)

`assert` is active: the checks made inside assertions are part of the model. -/

namespace Plc.IsoSearch

open Plc.Cmp Plc.PermM Plc.Emap Plc.Isos Plc.Multidx

/-- Whether comparing any two different positions of the array is safe. -/
def pairsOk {α : Type} (cmp : α → α → Res Int) : List α → Bool
  | [] => true
  | a :: l => l.all (fun b => (cmp a b).isOk && (cmp b a).isOk) && pairsOk cmp l

/-- What the comparison says about the order of two elements. -/
def leOf {α : Type} (cmp : α → α → Res Int) (a b : α) : Bool :=
  match cmp a b with
  | .ok c => decide (c ≤ 0)
  | .error _ => false

/-- `qsort` with a comparison that can fail. Which elements get compared is up to the library: if any
comparison could fail, sorting is taken to fail. -/
def sortR {α : Type} (qs : QSort) (cmp : α → α → Res Int) (l : List α) : Res (List α) :=
  if pairsOk cmp l then .ok (qs.sort (leOf cmp) l) else .error .die

/-- The loop over neighbours in `pd_perms_unique`, `pd_edgemaps_ok` and `pd_isos_unique`
(pd_perm.c 323-332, pd_isomorphisms.c 538-573, 2252-2283). Its bound is `n - 1` for unsigned `n`. -/
def noneSame {α : Type} (same : α → α → Res Bool) : List α → Res Bool
  | a :: b :: l => do
    let s ← same a b
    if s then .ok false else noneSame same (b :: l)
  | [_] => .ok true
  | [] => .error .ub

/-- A loop that checks every element and returns false at the first bad one. -/
def allOk {α : Type} (ok : α → Res Bool) : List α → Res Bool
  | [] => .ok true
  | a :: l => do
    let b ← ok a
    if b then allOk ok l else .ok false

/-- `pd_perms_unique` (pd_perm.c 312-335). It sorts the caller's array. -/
def permsUnique (qs : QSort) (ps : List Perm) : Res (List Perm × Bool) := do
  let ps ← sortR qs (fun a b => permCmp a.map b.map) ps
  let b ← noneSame (fun a b : Perm => .ok (decide (a.map = b.map))) ps
  .ok (ps, b)

/-- `pd_compperms_ok` (pd_isomorphisms.c 330-355), with the array as it is afterwards. -/
def comppermsOk (qs : QSort) (ps : List Perm) : Res (List Perm × Bool) := do
  let b ← allOk permOk ps
  if b then permsUnique qs ps else .ok (ps, false)

/-- `pd_edgemap_cmp` on edge maps. -/
def emapCmp (a b : EMap) : Res Int := edgemapCmp a.perm.map a.orient b.perm.map b.orient

/-- A comparison with result 0. -/
def sameBy {α : Type} (cmp : α → α → Res Int) (a b : α) : Res Bool := do
  let c ← cmp a b
  .ok (decide (c = 0))

/-- `pd_edgemaps_ok` (pd_isomorphisms.c 508-580). -/
def edgemapsOk (qs : QSort) (ms : List EMap) : Res Bool := do
  let b ← allOk emapOk ms
  if b then do
    let s ← sortR qs emapCmp ms
    noneSame (sameBy emapCmp) s
  else .ok false

/-! ## Component permutations -/

/-- The groups of neighbouring components with the same number of edges (pd_isomorphisms.c 140-177);
`cur` is the group being filled, of components with `prev` edges, `i` the next component. -/
def runs (prev : Nat) (cur : List Nat) (i : Nat) : List Nat → List (List Nat)
  | [] => [cur]
  | s :: l => if s = prev then runs s (cur ++ [i]) (i + 1) l else cur :: runs s [i] (i + 1) l

/-- The numbers of edges of the components, in order. -/
def compSizes (K : List Comp) : List Nat := K.map (fun k => k.edge.length)

/-- `pd_build_compgrps` (pd_isomorphisms.c 107-212). Three passes over the components in C; the
assertions about the groups just made (173, 179-204) are left out. -/
def compgrps (A B : List Comp) : Res (Option (List (List Nat))) :=
  if A.length ≠ B.length then .ok none
  else if compSizes A ≠ compSizes B then .ok none
  else do
    let k ← rd A 0
    .ok (some (runs k.edge.length [0] 1 (compSizes (A.drop 1))))

/-- `map[frm[j]] = dst[d[j]]`: the inner loops of `pd_build_compperms` (pd_isomorphisms.c 287-291) and
`pd_build_edgemaps` (pd_isomorphisms.c 648-656), from `j` on, `n` rounds left. -/
def images (frm dst d : List Nat) : Nat → Nat → List Nat → Res (List Nat)
  | 0, _, m => .ok m
  | n + 1, j, m => do
    let x ← rd frm j
    let y ← rd d j
    let z ← rd dst y
    let m ← wr m x z
    images frm dst d n (j + 1) m

/-- One component permutation (pd_isomorphisms.c 279-297). -/
def compperm (bs : BSearch) : List (List Nat) → List Perm → Perm → Res Perm
  | g :: gs, p :: ps, q => do
    let m ← images g g p.map g.length 0 q.map
    let q ← regenPc bs m
    compperm bs gs ps q
  | _, _, q => .ok q

/-- The loop over a multi-index (pd_isomorphisms.c 277, 635): the body, then `pd_increment_multidx`,
`n` times. -/
def enumLoop {σ α : Type} (ops : Ops σ) (body : List σ → Res α) : Nat → Multi σ → Res (List α)
  | 0, _ => .ok []
  | n + 1, m => do
    let a ← body m.obj
    let m ← incMultidx ops m
    let r ← enumLoop ops body n m
    .ok (a :: r)

/-- `pd_build_compperms` (pd_isomorphisms.c 234-306). -/
def buildCompperms (bs : BSearch) (grps : List (List Nat)) : Res (List Perm) := do
  assertC (grps.length > 0)
  let m ← newMultidx permOps (grps.map (fun g => newPerm g.length))
  enumLoop permOps (fun ps => compperm bs grps ps (newPerm (grps.map List.length).sum)) (multidxNvals m) m

/-! ## Edge maps -/

/-- `orient[frm[j]] = o` (pd_isomorphisms.c 654). -/
def paint (o : Or) : List Nat → List Or → Res (List Or)
  | [], os => .ok os
  | x :: l, os => do
    let os ← wr os x o
    paint o l os

/-- The loop over components (pd_isomorphisms.c 637-658), from component `c` on. The writes to the two
arrays alternate in C. -/
def edgemapLoop (B : List Comp) (cp : List Nat) : List Comp → Nat → List Iters.Dihedral → List Nat → List Or →
    Res (List Nat × List Or)
  | k :: ks, c, d :: ds, m, os => do
    let t ← rd cp c
    let b ← rd B t
    assertC (k.edge.length = b.edge.length)
    let m ← images k.edge b.edge d.map k.edge.length 0 m
    let os ← paint d.orient k.edge os
    edgemapLoop B cp ks (c + 1) ds m os
  | _, _, _, m, os => .ok (m, os)

/-- One edge map (pd_isomorphisms.c 637-662). -/
def edgemapOf (bs : BSearch) (nedges : Nat) (A B : List Comp) (cp : List Nat) (ds : List Iters.Dihedral) :
    Res EMap := do
  let (m, os) ← edgemapLoop B cp A 0 ds (newEMap nedges).perm.map (newEMap nedges).orient
  let p ← regenPc bs m
  .ok ⟨p, os⟩

/-- `pd_build_edgemaps` (pd_isomorphisms.c 583-671). -/
def buildEdgemaps (bs : BSearch) (A B : Io.Pd) (cp : List Nat) : Res (List EMap) := do
  assertC (A.comp.length = B.comp.length && B.comp.length = cp.length)
  assertC (A.edge.length = B.edge.length)
  let m ← newMultidx dihedralOps (A.comp.map (fun k => Iters.newDihedral k.edge.length))
  enumLoop dihedralOps (edgemapOf bs A.edge.length A.comp B.comp cp) (multidxNvals m) m

/-! ## Face maps -/

/-- The loop of `pdint_build_oriented_facemap` (pd_isomorphisms.c 1312-1356). `none`: no face found. -/
def faceLoop (bs : BSearch) (G : List Face) (m : List Nat) (o : Or) : List Face → Res (Option (List Nat))
  | [] => .ok (some [])
  | f :: l => do
    let es ← composeMap m f.edge
    let g ← Faces.canonorderFace ⟨es, List.replicate f.edge.length .neg⟩ o
    match bs.find (fun z => faceCmp g z) G with
    | none => .ok none
    | some i => do
      let r ← faceLoop bs G m o l
      match r with
      | none => .ok none
      | some r => .ok (some (i :: r))

/-- `pdint_build_oriented_facemap` (pd_isomorphisms.c 1293-1365). -/
def orientedFacemap (bs : BSearch) (F G : List Face) (m : List Nat) (o : Or) : Res (Option OMap) := do
  assertC (F.length = G.length)
  let r ← faceLoop bs G m o F
  match r with
  | none => .ok none
  | some r => do
    let p ← regenPc bs r
    .ok (some ⟨p, o⟩)

/-- `pd_build_facemaps` (pd_isomorphisms.c 1367-1406). -/
def buildFacemaps (bs : BSearch) (A B : Io.Pd) (em : EMap) : Res (List OMap) :=
  if A.cross.length = 0 ∧ B.cross.length = 0 then do
    let o ← rd em.orient 0
    let p ← wr (newPerm A.face.length).map 0 0
    let p ← wr p 1 1
    .ok [⟨⟨p, 0⟩, o⟩]
  else do
    let p ← orientedFacemap bs A.face B.face em.perm.map .pos
    let q ← orientedFacemap bs A.face B.face em.perm.map .neg
    .ok (p.toList ++ q.toList)

/-! ## Isomorphisms -/

/-- `pd_iso_t` (pd_isomorphisms.h); the crossing map can be `NULL`. -/
structure Iso where
  comp : Perm
  emap : EMap
  cmap : Option OMap
  fmap : OMap
  deriving DecidableEq, Repr

/-- `pd_crossmap_cmp` and `pd_facemap_cmp` on maps. -/
def omapCmp (a b : OMap) : Res Int := crossmapCmp a.orient a.perm.map b.orient b.perm.map

/-- `pd_crossmap_cmp` on pointers: `NULL` is dereferenced. -/
def cmapCmp : Option OMap → Option OMap → Res Int
  | some a, some b => omapCmp a b
  | _, _ => .error .ub

/-- `pd_iso_cmp` (pd_isomorphisms.c 1793-1813). -/
def isoCmp (a b : Iso) : Res Int := do
  let c ← permCmp a.comp.map b.comp.map
  if c ≠ 0 then .ok c
  else do
    let c ← emapCmp a.emap b.emap
    if c ≠ 0 then .ok c
    else do
      let c ← cmapCmp a.cmap b.cmap
      if c ≠ 0 then .ok c else omapCmp a.fmap b.fmap

/-- `pd_crossmap_ok` (pd_isomorphisms.c 939-943). -/
def cmapOk : Option OMap → Res Bool
  | none => .ok true
  | some m => permOk m.perm

/-- `pd_iso_ok` (pd_isomorphisms.c 1815-1827). -/
def isoOk (i : Iso) : Res Bool := do
  let b ← permOk i.comp
  if b then do
    let b ← emapOk i.emap
    if b then do
      let b ← cmapOk i.cmap
      if b then permOk i.fmap.perm else .ok false
    else .ok false
  else .ok false

/-- The number of crossings in the crossing map (pd_isomorphisms.c 1934-1943). -/
def cmapSize (ncross : Nat) : Option OMap → Res Bool
  | some m => .ok (ncross = 0 || decide (ncross = m.perm.n))
  | none => if ncross = 0 then .ok true else .error .ub

/-- Components go to components of the same length (pd_isomorphisms.c 1981-1999), from `c` on. -/
def sizesAgree (B : List Comp) (cp : List Nat) : List Comp → Nat → Res Bool
  | [], _ => .ok true
  | k :: l, c => do
    let t ← rd cp c
    let b ← rd B t
    if k.edge.length ≠ b.edge.length then .ok false else sizesAgree B cp l (c + 1)

/-- Edges go where their components go (pd_isomorphisms.c 2003-2022); `n` edges from `e` on. -/
def edgesAgree (A B : Io.Pd) (i : Iso) : Nat → Nat → Res Bool
  | 0, _ => .ok true
  | n + 1, e => do
    let (c, _) ← Strands.compAndPos A.edge.length A.comp e
    let a ← rd i.emap.perm.map e
    let (c', _) ← Strands.compAndPos B.edge.length B.comp a
    let t ← rd i.comp.map c
    if c' ≠ t then .ok false else edgesAgree A B i n (e + 1)

/-- All these edges have orientation `o` (pd_isomorphisms.c 2040-2054). -/
def allOr (os : List Or) (o : Or) : List Nat → Res Bool
  | [] => .ok true
  | e :: l => do
    let x ← rd os e
    if x ≠ o then .ok false else allOr os o l

/-- The orientations of the components, or `none` when some component has edges of both
(pd_isomorphisms.c 2033-2056). -/
def compOrs (os : List Or) : List Comp → Res (Option (List Or))
  | [] => .ok (some [])
  | k :: l => do
    let e ← rd k.edge 0
    let o ← rd os e
    let b ← allOr os o (k.edge.drop 1)
    if b then do
      let r ← compOrs os l
      .ok (r.map (fun r => o :: r))
    else .ok none

/-- One component goes to its image in order (pd_isomorphisms.c 2069-2099), `n` edges from `j` on. -/
def orderAgrees (B : Io.Pd) (m : List Nat) (k : List Nat) (o : Or) : Nat → Nat → Res Bool
  | 0, _ => .ok true
  | n + 1, j => do
    let e1 ← rd k j
    let e2 ← rd k ((j + 1) % k.length)
    let a1 ← rd m e1
    let a2 ← rd m e2
    let (c1, p1) ← Strands.compAndPos B.edge.length B.comp a1
    let (c2, p2) ← Strands.compAndPos B.edge.length B.comp a2
    assertC (c1 = c2)
    let b ← rd B.comp c1
    let s ← inCyclicOrder p1 p2 b.edge.length o
    if s then orderAgrees B m k o n (j + 1) else .ok false

/-- The loop over components (pd_isomorphisms.c 2065-2101). -/
def ordersAgree (B : Io.Pd) (m : List Nat) : List Comp → List Or → Res Bool
  | k :: ks, o :: os => do
    let b ← orderAgrees B m k.edge o k.edge.length 0
    if b then ordersAgree B m ks os else .ok false
  | _, _ => .ok true

/-- Crossings go to their images (pd_isomorphisms.c 2124-2151), from crossing `c` on. -/
def crossAgree (B : List Cross) (m cm : List Nat) (o : Or) : List Cross → Nat → Res Bool
  | [], _ => .ok true
  | x :: l, c => do
    let es ← composeMap m [x.e0, x.e1, x.e2, x.e3]
    let t ← rd cm c
    let z ← rd B t
    let b ← buffersCyclicEq es [z.e0, z.e1, z.e2, z.e3] 4 o
    if b then crossAgree B m cm o l (c + 1) else .ok false

/-- The crossings, if there are any (pd_isomorphisms.c 2124-2151). -/
def crossingsAgree (A B : List Cross) (m : List Nat) : Option OMap → Res Bool
  | some cm => crossAgree B m cm.perm.map cm.orient A 0
  | none => if A.length = 0 then .ok true else .error .ub

/-- Faces go to faces of the same length (pd_isomorphisms.c 2159-2177), from face `c` on. -/
def faceSizesAgree (G : List Face) (fm : List Nat) : List Face → Nat → Res Bool
  | [], _ => .ok true
  | f :: l, c => do
    let t ← rd fm c
    let g ← rd G t
    if f.edge.length ≠ g.edge.length then .ok false else faceSizesAgree G fm l (c + 1)

/-- Faces go to their images (pd_isomorphisms.c 2183-2224), from face `c` on. -/
def facesAgree (G : List Face) (m fm : List Nat) (o : Or) : List Face → Nat → Res Bool
  | [], _ => .ok true
  | f :: l, c => do
    let es ← composeMap m f.edge
    let t ← rd fm c
    let g ← rd G t
    assertC (g.edge.length = f.edge.length)
    let b ← buffersCyclicEq es g.edge g.edge.length o
    if b then facesAgree G m fm o l (c + 1) else .ok false

/-- The checks of `pd_iso_consistent` from line 1981 on. -/
def isoAgrees (A B : Io.Pd) (i : Iso) : Res Bool := do
  let b ← sizesAgree B.comp i.comp.map A.comp 0
  if b then do
    let b ← edgesAgree A B i A.edge.length 0
    if b then do
      let os ← compOrs i.emap.orient A.comp
      match os with
      | none => .ok false
      | some os => do
        let b ← ordersAgree B i.emap.perm.map A.comp os
        if b then do
          let b ← crossingsAgree A.cross B.cross i.emap.perm.map i.cmap
          if b then do
            let b ← faceSizesAgree B.face i.fmap.perm.map A.face 0
            if b then facesAgree B.face i.emap.perm.map i.fmap.perm.map i.fmap.orient A.face 0 else .ok false
          else .ok false
        else .ok false
    else .ok false
  else .ok false

/-- The sizes of the maps (pd_isomorphisms.c 1931-1973). -/
def isoSizes (A B : Io.Pd) (i : Iso) : Res Bool := do
  assertC (A.cross.length = B.cross.length)
  let b ← cmapSize A.cross.length i.cmap
  if b then do
    assertC (A.edge.length = B.edge.length)
    if A.edge.length ≠ i.emap.perm.n then .ok false
    else do
      assertC (A.face.length = B.face.length)
      if A.face.length ≠ i.fmap.perm.n then .ok false
      else do
        assertC (A.comp.length = B.comp.length)
        .ok (decide (A.comp.length = i.comp.n))
  else .ok false

/-- `pd_iso_consistent` (pd_isomorphisms.c 1901-2233). -/
def isoConsistent (qs : QSort) (capsA capsB : Io.Caps) (A B : Io.Pd) (i : Iso) : Res Bool := do
  let b ← Ok.pdOk qs capsA A
  assertC b
  let b ← Ok.pdOk qs capsB B
  assertC b
  let b ← isoOk i
  if b then do
    let b ← isoSizes A B i
    if b then isoAgrees A B i else .ok false
  else .ok false

/-- `pd_isos_unique` (pd_isomorphisms.c 2235-2290). -/
def isosUnique (qs : QSort) (is : List Iso) : Res Bool := do
  let s ← sortR qs isoCmp is
  noneSame (sameBy isoCmp) s

/-- The loops of `pdint_build_isos`: with `stop`, they end once something has been found. -/
def collect {α : Type} (stop : Bool) (body : α → List Iso → Res (List Iso)) : List α → List Iso → Res (List Iso)
  | [], acc => .ok acc
  | a :: l, acc =>
    if stop && !acc.isEmpty then .ok acc
    else do
      let acc ← body a acc
      collect stop body l acc

/-- One isomorphism (pd_isomorphisms.c 1553-1568). -/
def addIso (qs : QSort) (capsA capsB : Io.Caps) (A B : Io.Pd) (cp : Perm) (em : EMap) (cf : Option OMap × OMap)
    (acc : List Iso) : Res (List Iso) := do
  let b ← isoConsistent qs capsA capsB A B ⟨cp, em, cf.1, cf.2⟩
  assertC b
  .ok (acc ++ [⟨cp, em, cf.1, cf.2⟩])

/-- The body of the loop over edge maps (pd_isomorphisms.c 1541-1573). -/
def edgemapBody (qs : QSort) (bs : BSearch) (stop : Bool) (capsA capsB : Io.Caps) (A B : Io.Pd) (cp : Perm) (em : EMap)
    (acc : List Iso) : Res (List Iso) := do
  let cs ← buildCrossmaps bs false A.cross B.cross em.perm.map
  let fs ← buildFacemaps bs A B em
  assertC (cs.length = fs.length)
  collect stop (addIso qs capsA capsB A B cp em) (cs.zip fs) acc

/-- The body of the loop over component permutations (pd_isomorphisms.c 1533-1577). -/
def comppermBody (qs : QSort) (bs : BSearch) (stop : Bool) (capsA capsB : Io.Caps) (A B : Io.Pd) (cp : Perm)
    (acc : List Iso) : Res (List Iso) := do
  let ems ← buildEdgemaps bs A B cp.map
  let b ← edgemapsOk qs ems
  assertC b
  collect stop (edgemapBody qs bs stop capsA capsB A B cp) ems acc

/-- Moving the isomorphisms out of the container, last one first, and checking them
(pd_isomorphisms.c 1582-1605). -/
def handOver (qs : QSort) (acc : List Iso) : Res (List Iso) :=
  if acc.isEmpty then .ok []
  else do
    let b ← isosUnique qs acc.reverse
    assertC b
    .ok acc.reverse

/-- `pdint_build_isos` (pd_isomorphisms.c 1458-1609); `stop` is `FAILEARLY`, `NULL` the empty list. All
`PD_HASHSIZE` bytes of the hashes are compared; here the hash is the string in them. -/
def buildIsos (qs : QSort) (bs : BSearch) (stop : Bool) (capsA capsB : Io.Caps) (A B : Io.Pd) : Res (List Iso) :=
  if A.hash ≠ B.hash then .ok []
  else if A.cross.length ≠ B.cross.length then .ok []
  else if A.edge.length ≠ B.edge.length then .ok []
  else if A.comp.length ≠ B.comp.length then .ok []
  else if A.face.length ≠ B.face.length then .ok []
  else if compSizes A.comp ≠ compSizes B.comp then .ok []
  else if A.face.map (fun f => f.edge.length) ≠ B.face.map (fun f => f.edge.length) then .ok []
  else do
    let g ← compgrps A.comp B.comp
    match g with
    | none => .ok []
    | some g => do
      let ps ← buildCompperms bs g
      let (ps, b) ← comppermsOk qs ps
      assertC b
      let acc ← collect stop (comppermBody qs bs stop capsA capsB A B) ps []
      handOver qs acc

/-- `pd_isomorphic` (pd_isomorphisms.c 1612-1636). -/
def isomorphic (qs : QSort) (bs : BSearch) (capsA capsB : Io.Caps) (A B : Io.Pd) : Res Bool := do
  let r ← buildIsos qs bs true capsA capsB A B
  .ok (!r.isEmpty)

end Plc.IsoSearch
