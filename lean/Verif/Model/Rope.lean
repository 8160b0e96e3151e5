import Verif.Model.Octree
import Verif.Model.Minrad

/-! # Ropelength and thickness (`src/octrope.c` 1715-1990)

Doubles are real numbers, without rounding; `big` stands for `DBL_MAX`. Pointers to results which are NULL are `false` in `Ask`; results which
are not written are `none`. The curve is there, and so is the list for the struts if it has room. `front` and `req` are as in Model/Octree. -/

namespace Plc.Struts

open Plc.Core Plc.FindCrossings Plc.RandomPolygon Plc.Equilateral Plc.Motions Plc.Measure Plc.Poca

/-- The loop of `octrope_curvelength` (1730-1738). -/
noncomputable def curveLoop : List Comp → ℝ → Res ℝ
  | [], s => .ok s
  | c :: cs, s => do
    let s' ← edgeSum c (if c.isOpen then c.vt.length - 1 else c.vt.length) 0 s
    curveLoop cs s'

/-- `octrope_curvelength` (1715-1741). -/
noncomputable def curveLength (cp : List Comp) : Res ℝ := curveLoop cp 0

/-- Which results are asked for. -/
structure Ask where
  rope : Bool := false
  thick : Bool := false
  len : Bool := false
  rad : Bool := false
  locs : Bool := false
  strut : Bool := false
  num : Bool := false

/-- The results; `list` is what is in the list of struts. -/
structure Rope where
  rope : Option ℝ := none
  thick : Option ℝ := none
  len : Option ℝ := none
  rad : Option ℝ := none
  locs : Option (List Minrad.Loc) := none
  strut : Option ℝ := none
  num : Option Int := none
  list : List Strut := []

/-- What the part on struts (1880-1907) leaves: what is reported as the shortest length, what is used for it later (`none`: not initialised), the number
reported, the list. -/
structure Found where
  told : Option ℝ
  used : Option ℝ
  num : Int
  list : List Strut

/-- The shortest length without a cutoff (1903): `octrope_struts(L,DBL_MAX,0,NULL,0,...)`. -/
noncomputable def again (big : ℝ) (front : Option Varr) (req : Nat) (cp : List Comp) : Res (Option ℝ) := do
  let r ← octropeStruts big front req cp big 0 0
  .ok (r.map (·.1))

/-- The strut data (1880-1907). -/
noncomputable def strutData (big : ℝ) (front : Option Varr) (req : Nat) (cp : List Comp) (cutoff eps : ℝ) (size : Nat) : Res Found := do
  let r ← octropeStruts big front req cp cutoff eps size
  match r with
  | none => .ok ⟨none, none, -1, []⟩
  | some (sh, l) =>
    if l.length = 0 then do
      let u ← again big front req cp
      .ok ⟨some sh, u, 0, l⟩
    else .ok ⟨some sh, some sh, l.length, l⟩

/-- Reading a variable. -/
def need {α : Type} : Option α → Res α
  | some a => .ok a
  | none => .error .ub

/-- Something that is only done if asked for. -/
def iff {α : Type} (b : Bool) (x : Res α) : Res (Option α) :=
  match b with
  | true => x.map some
  | false => .ok none

/-- `octrope_minrad` as called (1850-1864), if it is. -/
noncomputable def radData (big : ℝ) (ask : Ask) (L : Curve) (cutoff eps : ℝ) (size : Nat) (lam : ℝ) : Res (ℝ × List Minrad.Loc) :=
  open Classical in
  if (ask.rope || ask.thick || ask.rad || ask.locs) = true ∧ 0 < lam then Minrad.minrad big cutoff eps (if ask.locs then some size else none) L
  else .ok (0, [])

/-- The thickness (1913-1919). -/
noncomputable def thickness (rad lam sh : ℝ) : ℝ := if lam = 0 then sh / 2 else if sh / 2 < rad / lam then sh / 2 else rad / lam

/-- The strut data, if it is needed (1880-1881). -/
noncomputable def strutPart (big : ℝ) (front : Option Varr) (req : Nat) (ask : Ask) (cp : List Comp) (cutoff eps : ℝ) (size : Nat) : Res Found :=
  if (ask.rope || ask.thick || ask.strut || ask.num) = true then strutData big front req cp cutoff eps size else .ok ⟨none, none, 0, []⟩

/-- `octrope` (1823-1960). The minimum strut length is read when it is reported (1885) although it may not be initialised. -/
noncomputable def octrope (big : ℝ) (front : Option Varr) (req : Nat) (ask : Ask) (L : Curve) (mrCutoff mrEps : ℝ) (mrSize : Nat) (cutoff eps : ℝ) (size : Nat)
    (lam : ℝ) : Res Rope :=
  if lam < 0 then .ok {}
  else do
    let mr ← radData big ask L mrCutoff mrEps mrSize lam
    let f ← strutPart big front req ask (L.cp.map fixWrap) cutoff eps size
    let strut ← iff ask.strut (need f.told)
    let th ← iff (ask.rope || ask.thick) ((need f.used).map (thickness mr.1 lam))
    let len ← iff (ask.rope || ask.len) (curveLength (L.cp.map fixWrap))
    let rope ← iff ask.rope (do
      let t ← need th
      let l ← need len
      .ok (if t = 0 then big else l / t))
    .ok {
      rope := rope
      thick := if ask.thick then th else none
      len := if ask.len then len else none
      rad := if ask.rad then some (if lam = 0 then big else mr.1) else none
      locs := if ask.locs then some (if lam = 0 then [] else mr.2) else none
      strut := strut
      num := if ask.num then some f.num else none
      list := f.list }

/-- `octrope_thickness` (1777-1794). -/
noncomputable def octropeThickness (big : ℝ) (front : Option Varr) (req : Nat) (L : Curve) (lam : ℝ) : Res ℝ := do
  let r ← octrope big front req { thick := true } L 0 0 0 0 0 0 lam
  need r.thick

/-- `octrope_ropelength` (1806-1821). -/
noncomputable def octropeRopelength (big : ℝ) (front : Option Varr) (req : Nat) (L : Curve) (lam : ℝ) : Res ℝ := do
  let r ← octrope big front req { rope := true } L 0 0 0 0 0 0 lam
  need r.rope

/-- `octrope_poca` (1747-1754). -/
noncomputable def octropePoca (big : ℝ) (front : Option Varr) (req : Nat) (L : Curve) : Res ℝ := do
  let r ← octropeStruts big front req (L.cp.map fixWrap) 0 0 0
  need (r.map (·.1))

/-- One end of a strut (1985-1988). -/
noncomputable def endOf (cp : List Comp) (i v : Nat) (s : ℝ) : Res V3 := do
  let c ← rd cp i
  let a ← vtAt c (v : Int)
  let b ← vtAt c ((v : Int) + 1)
  .ok ⟨(1 - s) * a.x + s * b.x, (1 - s) * a.y + s * b.y, (1 - s) * a.z + s * b.z⟩

/-- `octrope_strut_ends` (1967-1990). -/
noncomputable def strutEnds (cp : List Comp) (x : Strut) : Res (V3 × V3) := do
  let p ← endOf cp x.comp0 x.vert0 x.pos0
  let q ← endOf cp x.comp1 x.vert1 x.pos1
  .ok (p, q)

end Plc.Struts
