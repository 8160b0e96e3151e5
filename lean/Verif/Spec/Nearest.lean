import Verif.Model.Nearest
import Verif.Spec.Motions

/-! # Nearest points: what is expected -/

namespace Plc

open Plc.FindCrossings Plc.Nearest

/-- Point `i` of the list is one of the nearest to `pt`. -/
def NearestIn (pt : V3) (vs : List V3) (i : Nat) : Prop :=
  ∃ v, vs[i]? = some v ∧ ∀ w ∈ vs, apart pt v ≤ apart pt w

/-- The bounding box fits an `int`. -/
def Fits (vs : List V3) : Prop :=
  ∀ a ∈ vs, ∀ b ∈ vs, a.x - b.x < 2 ^ 31 ∧ a.y - b.y < 2 ^ 31 ∧ a.z - b.z < 2 ^ 31

/-- Some point is near enough for the square of the distance to be below `DBL_MAX`. -/
def Reachable (big : ℝ) (pt : V3) (vs : List V3) : Prop := ∃ v ∈ vs, distSq pt v < big

/-- What `*pc_data` can be while one buffer is searched again and again: nothing, left from another buffer, or left by an earlier search
of the first `n` points of this buffer. -/
inductive Served (qs : QSort) (big : ℝ) (n addr : Nat) (buf : List V3) : Option (Option Pc) → Prop
  | unused : Served qs big n addr buf none
  | fresh : Served qs big n addr buf (some none)
  | other (p : Pc) (h : p.check ≠ addr) : Served qs big n addr buf (some (some p))
  | after (pt : V3) (pc pc' : Option (Option Pc)) (i : Nat) (st : Bool) (h : Served qs big n addr buf pc)
      (hc : nearest qs big pt n addr buf pc = .ok (i, pc', st)) : Served qs big n addr buf pc'

/-- The same for a curve. Data whose components were moved since (`parts`) is among it. -/
inductive VServed (qs : QSort) (big : ℝ) (addr : Nat) (L : List Part) : Option (Option VPc) → Prop
  | unused : VServed qs big addr L none
  | fresh : VServed qs big addr L (some none)
  | other (p : VPc) (h : p.check ≠ addr) : VServed qs big addr L (some (some p))
  | parts (p : VPc) (h : List.Forall₂ (fun c q => Served qs big c.vt.length c.addr c.vt (some q)) L p.comps) : VServed qs big addr L (some (some p))
  | after (pt : V3) (pc pc' : Option (Option VPc)) (v : V3) (cp vt : Nat) (st : Bool) (h : VServed qs big addr L pc)
      (hc : nearestVertex qs big pt addr L pc = .ok (v, cp, vt, pc', st)) : VServed qs big addr L pc'

end Plc
