import Verif.Model.IsoSearch

/-! # Diagram isotopies and map isomorphisms (`src/pd_isomorphisms.c`)

As in `IsoSearch`, assertions are active. -/

namespace Plc.Isotopy

open Plc.Cmp Plc.PermM Plc.Emap Plc.Isos Plc.Multidx Plc.IsoSearch

/-- Equal tags (pd_isomorphisms.c 2302-2310), `n` components from `i` on. -/
def tagsAgree (A B : List Comp) (cp : List Nat) : Nat → Nat → Res Bool
  | 0, _ => .ok true
  | n + 1, i => do
    let a ← rd A i
    let t ← rd cp i
    let b ← rd B t
    if a.tag ≠ b.tag then .ok false else tagsAgree A B cp n (i + 1)

/-- Equal signs (pd_isomorphisms.c 2347-2355), `n` crossings from `i` on. -/
def signsAgree (A B : List Cross) (cm : List Nat) : Nat → Nat → Res Bool
  | 0, _ => .ok true
  | n + 1, i => do
    let a ← rd A i
    let t ← rd cm i
    let b ← rd B t
    if a.sign ≠ b.sign then .ok false else signsAgree A B cm n (i + 1)

/-- The crossing map of a diagram with crossings. -/
def theCmap : Option OMap → Res OMap
  | some m => .ok m
  | none => .error .ub

/-- `pd_is_diagram_isotopy` (pd_isomorphisms.c 2296-2360). -/
def isDiagramIsotopy (A B : Io.Pd) (i : Iso) : Res Bool := do
  let b ← tagsAgree A.comp B.comp i.comp.map i.comp.n 0
  if b then
    if A.cross.length ≠ B.cross.length then .ok false
    else if A.cross.length > 0 then do
      let cm ← theCmap i.cmap
      assertC (cm.orient = i.fmap.orient)
      if i.emap.orient.all (fun o => decide (o = .pos)) then signsAgree A.cross B.cross cm.perm.map cm.perm.n 0
      else .ok false
    else .ok (i.emap.orient.all (fun o => decide (o = .pos)))
  else .ok false

/-- `pd_diagram_isotopy_ok` (pd_isomorphisms.c 2363-2383). -/
def diagramIsotopyOk (A B : Io.Pd) (i : Iso) : Res Bool := do
  let b ← isoOk i
  if b then isDiagramIsotopy A B i else .ok false

/-- `pd_build_oriented_edgemaps` (pd_isomorphisms.c 2385-2470). The body of its loop is that of
`pd_build_edgemaps`, with `PD_POS_ORIENTATION` for the orientation. -/
def orientedEdgemaps (bs : BSearch) (A B : Io.Pd) (cp : List Nat) : Res (List EMap) := do
  assertC (A.comp.length = B.comp.length && B.comp.length = cp.length)
  assertC (A.edge.length = B.edge.length)
  let m ← newMultidx cyclicOps (A.comp.map (fun k => Iters.newCyclic k.edge.length))
  enumLoop cyclicOps (fun cs => edgemapOf bs A.edge.length A.comp B.comp cp (cs.map (fun c => ⟨c, .pos⟩)))
    (multidxNvals m) m

/-- The first component with this tag (pd_isomorphisms.c 2544-2553), from number `j` on. -/
def findTag (tag : Nat) : List Comp → Nat → Option Nat
  | [], _ => none
  | b :: l, j => if b.tag = tag then some j else findTag tag l (j + 1)

/-- The component permutation (pd_isomorphisms.c 2538-2563). A missing tag ends the program. -/
def tagPerm (B : List Comp) : List Comp → Res (List Nat)
  | [] => .ok []
  | a :: l =>
    match findTag a.tag B 0 with
    | none => .error .die
    | some j => do
      let r ← tagPerm B l
      .ok (j :: r)

/-- Signs added up, `PD_UNSET_ORIENTATION` counting as negative (pd_isomorphisms.c 2515-2521). -/
def writhe (cross : List Cross) : Int := (cross.map (fun x => if x.sign = .pos then (1 : Int) else -1)).sum

/-- One isotopy (pd_isomorphisms.c 2616-2626, 2632-2652). -/
def addIsotopy (A B : Io.Pd) (cp : Perm) (em : EMap) (cf : Option OMap × OMap) (acc : List Iso) : Res (List Iso) := do
  let b ← diagramIsotopyOk A B ⟨cp, em, cf.1, cf.2⟩
  assertC b
  .ok (acc ++ [⟨cp, em, cf.1, cf.2⟩])

/-- The face map going with the only crossing map (pd_isomorphisms.c 2630-2650). -/
def chooseFace (cs : List (Option OMap)) (fs : List OMap) : Res (Option OMap × OMap) := do
  assertC (cs.length = 1 && fs.length = 2)
  let c ← rd cs 0
  let cm ← theCmap c
  let f ← rd fs (if cm.orient = .pos then 0 else 1)
  .ok (c, f)

/-- The body of the loop over edge maps (pd_isomorphisms.c 2597-2659). -/
def isotopyBody (bs : BSearch) (A B : Io.Pd) (cp : Perm) (em : EMap) (acc : List Iso) : Res (List Iso) := do
  let cs ← buildCrossmaps bs true A.cross B.cross em.perm.map
  if cs.length > 0 then do
    let fs ← buildFacemaps bs A B em
    if cs.length = fs.length then collect false (addIsotopy A B cp em) (cs.zip fs) acc
    else do
      let cf ← chooseFace cs fs
      addIsotopy A B cp em cf acc
  else .ok acc

/-- `pd_build_diagram_isotopies` (pd_isomorphisms.c 2472-2706). The component permutation keeps the
`pc_idx` 0 it got from `pd_new_perm`. -/
def diagramIsotopies (qs : QSort) (bs : BSearch) (A B : Io.Pd) : Res (List Iso) :=
  if A.hash ≠ B.hash then .ok []
  else if A.cross.length ≠ B.cross.length then .ok []
  else if A.edge.length ≠ B.edge.length then .ok []
  else if A.comp.length ≠ B.comp.length then .ok []
  else if A.face.length ≠ B.face.length then .ok []
  else if compSizes A.comp ≠ compSizes B.comp then .ok []
  else if A.face.map (fun f => f.edge.length) ≠ B.face.map (fun f => f.edge.length) then .ok []
  else if writhe A.cross ≠ writhe B.cross then .ok []
  else do
    let m ← tagPerm B.comp A.comp
    let cp : Perm := ⟨m, 0⟩
    let b ← permOk cp
    if b then do
      let b ← sizesAgree B.comp cp.map A.comp 0
      if b then do
        let ems ← orientedEdgemaps bs A B cp.map
        let b ← edgemapsOk qs ems
        assertC b
        let acc ← collect false (isotopyBody bs A B cp) ems []
        handOver qs acc
      else .ok []
    else .error .die

/-- `pd_diagram_isotopic` (pd_isomorphisms.c 2708-2729). -/
def diagramIsotopic (qs : QSort) (bs : BSearch) (A B : Io.Pd) : Res Bool := do
  let r ← diagramIsotopies qs bs A B
  .ok (!r.isEmpty)

/-! ## Map isomorphisms -/

/-- One map isomorphism (pd_isomorphisms.c 2825-2843). Both callers leave `FAILEARLY` off. -/
def addMapIso (qs : QSort) (capsA capsB : Io.Caps) (A B : Io.Pd) (cp : Perm) (em : EMap) (cf : Option OMap × OMap)
    (acc : List Iso) : Res (List Iso) := do
  let cm ← theCmap cf.1
  if cm.orient = .pos then addIso qs capsA capsB A B cp em cf acc else .ok acc

/-- The body of the loop over edge maps (pd_isomorphisms.c 2812-2848). -/
def mapIsoEdgemapBody (qs : QSort) (bs : BSearch) (capsA capsB : Io.Caps) (A B : Io.Pd) (cp : Perm) (em : EMap)
    (acc : List Iso) : Res (List Iso) := do
  let cs ← buildCrossmaps bs false A.cross B.cross em.perm.map
  let fs ← buildFacemaps bs A B em
  assertC (cs.length = fs.length)
  collect false (addMapIso qs capsA capsB A B cp em) (cs.zip fs) acc

/-- The body of the loop over component permutations (pd_isomorphisms.c 2804-2852). -/
def mapIsoBody (qs : QSort) (bs : BSearch) (capsA capsB : Io.Caps) (A B : Io.Pd) (cp : Perm)
    (acc : List Iso) : Res (List Iso) := do
  let ems ← buildEdgemaps bs A B cp.map
  let b ← edgemapsOk qs ems
  assertC b
  collect false (mapIsoEdgemapBody qs bs capsA capsB A B cp) ems acc

/-- `pdint_build_map_isomorphisms` and `pd_build_map_isomorphisms` (pd_isomorphisms.c 2731-2888). -/
def mapIsomorphisms (qs : QSort) (bs : BSearch) (capsA capsB : Io.Caps) (A B : Io.Pd) : Res (List Iso) :=
  if A.hash ≠ B.hash then .ok []
  else if A.cross.length ≠ B.cross.length then .ok []
  else if A.edge.length ≠ B.edge.length then .ok []
  else if A.comp.length ≠ B.comp.length then .ok []
  else if A.face.length ≠ B.face.length then .ok []
  else if compSizes A.comp ≠ compSizes B.comp then .ok []
  else if A.face.map (fun f => f.edge.length) ≠ B.face.map (fun f => f.edge.length) then .ok []
  else do
    let g ← compgrps A.comp B.comp
    match g with
    | none => .ok []
    | some g => do
      let ps ← buildCompperms bs g
      let (ps, b) ← comppermsOk qs ps
      assertC b
      let acc ← collect false (mapIsoBody qs bs capsA capsB A B) ps []
      handOver qs acc

/-- `pd_map_isomorphic` (pd_isomorphisms.c 2890-2912). -/
def mapIsomorphic (qs : QSort) (bs : BSearch) (capsA capsB : Io.Caps) (A B : Io.Pd) : Res Bool := do
  let r ← mapIsomorphisms qs bs capsA capsB A B
  .ok (!r.isEmpty)

end Plc.Isotopy
