import Verif.Proofs.Std
import Verif.Props.Alternating
import Verif.Props.Bigon
import Verif.Props.BigonDel
import Verif.Props.Buffers
import Verif.Props.Builders
import Verif.Props.Chords
import Verif.Props.Cmp
import Verif.Props.Components
import Verif.Props.Comps
import Verif.Props.ConnectSum
import Verif.Props.Constraint
import Verif.Props.Container
import Verif.Props.Core
import Verif.Props.CstGeom
import Verif.Props.DeleteArc
import Verif.Props.Deletions
import Verif.Props.Double
import Verif.Props.Edgemap
import Verif.Props.Edges
import Verif.Props.Embed
import Verif.Props.Equilateral
import Verif.Props.Ewing
import Verif.Props.Faces
import Verif.Props.FindCrossings
import Verif.Props.FromCurve
import Verif.Props.Generate
import Verif.Props.Geyer
import Verif.Props.Hash
import Verif.Props.HashGen
import Verif.Props.Hypersimplex
import Verif.Props.Interlace
import Verif.Props.Io
import Verif.Props.IoFull
import Verif.Props.IsoSearch
import Verif.Props.IsoUnique
import Verif.Props.IsoWrap
import Verif.Props.Isos
import Verif.Props.Isotopy
import Verif.Props.Iters
import Verif.Props.Kascent
import Verif.Props.KnotTheory
import Verif.Props.KtPoly
import Verif.Props.Linking
import Verif.Props.Matrix
import Verif.Props.Measure
import Verif.Props.Minrad
import Verif.Props.Motions
import Verif.Props.Moves
import Verif.Props.MovesFull
import Verif.Props.Multidx
import Verif.Props.NVect
import Verif.Props.Nearest
import Verif.Props.Octree
import Verif.Props.Ok
import Verif.Props.Pack
import Verif.Props.Perm
import Verif.Props.Permute
import Verif.Props.Planar
import Verif.Props.Poca
import Verif.Props.Poly
import Verif.Props.PolyRead
import Verif.Props.PolyRound
import Verif.Props.PolyText
import Verif.Props.Polytope
import Verif.Props.Query
import Verif.Props.Quick
import Verif.Props.RandomPolygon
import Verif.Props.Regenerate
import Verif.Props.Rope
import Verif.Props.SameLinks
import Verif.Props.Sap
import Verif.Props.Simplify
import Verif.Props.Spline
import Verif.Props.Split
import Verif.Props.SplitDiagram
import Verif.Props.Store
import Verif.Props.StoreFile
import Verif.Props.StoreFull
import Verif.Props.Strands
import Verif.Props.StrutPi
import Verif.Props.Struts
import Verif.Props.SymBad
import Verif.Props.SymGroup
import Verif.Props.Symmetry
import Verif.Props.Triangle
import Verif.Props.Unpack
import Verif.Props.Vect
import Verif.Props.Vertex
import Verif.Props.XoPeriod
import Verif.Props.Xoshiro
