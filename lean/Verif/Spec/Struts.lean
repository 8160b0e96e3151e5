import Verif.Spec.Poca
import Verif.Model.Struts

/-! # The struts of a curve: what is expected -/

namespace Plc

open Plc.Core Plc.FindCrossings Plc.RandomPolygon Plc.Equilateral Plc.Motions Plc.Measure Plc.Struts

/-- Edge number `v` of the component runs from `a` to `b`. -/
def EdgeAt (c : Comp) (v : Nat) (a b : V3) : Prop :=
  c.vt[v]? = some a ∧ c.vt[if c.isOpen then v + 1 else (v + 1) % c.vt.length]? = some b

/-- No point of the edge from `a` to `b` is nearer to `y` than `x` is. -/
def NearestOn (a b y x : V3) : Prop := ∀ t, 0 ≤ t → t ≤ 1 → apart y x ≤ apart y (along a b t)

/-- The point at `s` on edge `v` is at least as near to `y` as any other point of that edge and, if it is where this edge starts, any point
of the edge which ends there. -/
def NearestThere (c : Comp) (v : Nat) (a b : V3) (s : ℝ) (y : V3) : Prop :=
  NearestOn a b y (along a b s) ∧
  (s = 0 → ∀ (u : Nat) (p q : V3), EdgeAt c u p q → (u + 1) % c.vt.length = v → NearestOn p q y (along a b s))

/-- One end of a strut: `0 ≤ s < 1`, or the last point of an open component. -/
def EndAt (c : Comp) (v : Nat) (s : ℝ) : Prop := 0 ≤ s ∧ (s < 1 ∨ (s = 1 ∧ c.isOpen = true ∧ v + 2 = c.vt.length))

/-- A strut: two points of the curve, each as near as it can be, by moving along the edges it is on, to the other. -/
def StrutOf (cp : List Comp) (x : Strut) : Prop :=
  ∃ (c c' : Comp) (a b a' b' : V3), cp[x.comp0]? = some c ∧ cp[x.comp1]? = some c' ∧ EdgeAt c x.vert0 a b ∧ EdgeAt c' x.vert1 a' b' ∧
    EndAt c x.vert0 x.pos0 ∧ EndAt c' x.vert1 x.pos1 ∧ x.len = apart (along a b x.pos0) (along a' b' x.pos1) ∧
    NearestThere c x.vert0 a b x.pos0 (along a' b' x.pos1) ∧ NearestThere c' x.vert1 a' b' x.pos1 (along a b x.pos0)

/-- The edges of the strut are on different components, or at least `k` edges apart along the component. -/
def FarAlong (cp : List Comp) (k : Int) (x : Strut) : Prop :=
  x.comp0 = x.comp1 → ∃ c, cp[x.comp0]? = some c ∧ k ≤ |(x.vert0 : Int) - x.vert1| ∧
    (c.isOpen = false → |(x.vert0 : Int) - x.vert1| + k ≤ c.vt.length)

/-- The edges of the strut are not parallel, nor nearly so. -/
def Transversal (cp : List Comp) (x : Strut) : Prop :=
  ∃ (c c' : Comp) (a b a' b' : V3), cp[x.comp0]? = some c ∧ cp[x.comp1]? = some c' ∧ EdgeAt c x.vert0 a b ∧ EdgeAt c' x.vert1 a' b' ∧
    1e-25 ≤ area a b a' b' ^ 2

/-- Any two edges are parallel, or clearly not. -/
def ClearCut (cp : List Comp) : Prop := ∀ (i j : Nat) (c c' : Comp) (v w : Nat) (a b a' b' : V3), cp[i]? = some c → cp[j]? = some c' → EdgeAt c v a b →
  EdgeAt c' w a' b' → area a b a' b' = 0 ∨ 1e-25 ≤ area a b a' b' ^ 2

/-- A curve whose edges have a length: components of at least two vertices, closed ones of at least three, no two equal next to each other. -/
def Edged (cp : List Comp) : Prop := ∀ c ∈ cp, 2 ≤ c.vt.length ∧ Proper c ∧ ∀ (v : Nat) (a b : V3), EdgeAt c v a b → a ≠ b

/-- The list holds every edge of the curve once, with its middle and length. -/
structure EdgesOf (cp : List Comp) (es : List Varr) : Prop where
  real : ∀ e ∈ es, ∃ (c : Comp) (a b : V3), cp[e.comp]? = some c ∧ EdgeAt c e.vert a b ∧ e.v = along a b (1 / 2) ∧ e.len = apart a b
  all : ∀ (i : Nat) (c : Comp) (v : Nat) (a b : V3), cp[i]? = some c → EdgeAt c v a b → ∃ e ∈ es, e.comp = i ∧ e.vert = v
  once : (es.map fun e => (e.comp, e.vert)).Nodup

/-- Boxes, one after the other, hold the edges from `first` on, `num` of them. -/
def Follow (boxes : List Box) : List (Option Nat) → Nat → Nat → Prop
  | [], _, num => num = 0
  | none :: r, first, num => Follow boxes r first num
  | some q :: r, first, num => ∃ B, boxes[q]? = some B ∧ B.first = first ∧ B.num ≤ num ∧ Follow boxes r (first + B.num) (num - B.num)

/-- The point is in the box. -/
def InBox (B : Box) (p : V3) : Prop :=
  B.lo.x ≤ p.x ∧ p.x ≤ B.hi.x ∧ B.lo.y ≤ p.y ∧ p.y ≤ B.hi.y ∧ B.lo.z ≤ p.z ∧ p.z ≤ B.hi.z

/-- Box `p` is the root of a tree of boxes of depth at most `f`: each box holds its edges, and its edges are those of the boxes inside of it. -/
def TreeAt (cp : List Comp) (es : List Varr) (boxes : List Box) : Nat → Nat → Prop
  | 0, _ => False
  | f + 1, p => ∃ B, boxes[p]? = some B ∧ B.first + B.num ≤ es.length ∧
      (∀ (j : Nat) (e : Varr) (c : Comp) (a b : V3), B.first ≤ j → j < B.first + B.num → es[j]? = some e → cp[e.comp]? = some c → EdgeAt c e.vert a b →
        InBox B a ∧ InBox B b) ∧
      ((∀ o ∈ B.subs, o = none) ∨ (Follow boxes B.subs B.first B.num ∧ ∀ q, some q ∈ B.subs → TreeAt cp es boxes f q))

/-- An octree of all edges. -/
def OctreeOf (cp : List Comp) (es : List Varr) (boxes : List Box) (depth root : Nat) : Prop :=
  TreeAt cp es boxes depth root ∧ ∃ B, boxes[root]? = some B ∧ B.first = 0 ∧ B.num = es.length

/-- The turning angle at a vertex of a component: between the edge which ends and the edge which starts there. -/
def TurnAt (c : Comp) (th : ℝ) : Prop :=
  ∃ (u v : Nat) (a b d : V3), EdgeAt c u a b ∧ EdgeAt c v b d ∧ (u + 1) % c.vt.length = v ∧ IsAngle (b.sub a) (d.sub b) th

/-- The strut with its ends exchanged. -/
def flip (x : Strut) : Strut := ⟨x.comp1, x.comp0, x.vert1, x.vert0, x.pos1, x.pos0, x.len⟩

/-- The two struts are of the same two edges. -/
def SameEdges (x y : Strut) : Prop :=
  (x.comp0, x.vert0) = (y.comp0, y.vert0) ∧ (x.comp1, x.vert1) = (y.comp1, y.vert1) ∨
  (x.comp0, x.vert0) = (y.comp1, y.vert1) ∧ (x.comp1, x.vert1) = (y.comp0, y.vert0)

/-- The bound for the length of struts: the cutoff, if there is one, or within `eps` of the shortest. -/
noncomputable def lengthBound (cutoff eps shortest : ℝ) : ℝ := if 0 < cutoff then cutoff else shortest + eps

end Plc
