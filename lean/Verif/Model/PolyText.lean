import Verif.Model.Poly
import Verif.Model.Vect

/-!
# Polynomials as text (`src/polynomials.c`)

`strcat` into a buffer of `cap` bytes is `cat`; the text so far is a list of characters without the final 0. `sprintf` into the local buffers of 256
bytes is not followed (the longest text written there has 16 characters).
-/

namespace Plc.Poly

open Plc.Io Plc.Vect

/-- `strcat(buf,s)` for a buffer of `cap` bytes. -/
def cat (cap : Int) (buf s : List Char) : Res (List Char) :=
  if ((buf.length + s.length + 1 : Nat) : Int) ≤ cap then .ok (buf ++ s) else .error .ub

/-- Several calls of `strcat`. -/
def catAll (cap : Int) (buf : List Char) : List (List Char) → Res (List Char)
  | [] => .ok buf
  | s :: l => do
    let buf ← cat cap buf s
    catAll cap buf l

/-- What is appended for one monomial by `poly_to_mathematica` (polynomials.c 246-260); `first` says whether `i` is 0. -/
def mathPieces (first : Bool) (x : Mono) : List (List Char) :=
  (if first then [] else [str " + "]) ++ [str "(" ++ decI x.coeff ++ str ")"] ++
    (if x.l ≠ 0 then [str "*a^(" ++ decI x.l ++ str ")"] else []) ++
    (if x.m ≠ 0 then [str "*z^(" ++ decI x.m ++ str ")"] else [])

/-- What is appended for one monomial by `poly_to_latex` (polynomials.c 275-301). -/
def latexPieces (first : Bool) (x : Mono) : List (List Char) :=
  (if first then (if x.coeff < 0 then [str "-"] else []) else (if x.coeff > 0 then [str " + "] else [str " - "])) ++
    (if x.coeff.natAbs ≠ 1 ∨ (x.l = 0 ∧ x.m = 0) then [dec x.coeff.natAbs] else []) ++
    (if x.l ≠ 0 then [str "a^{" ++ decI x.l ++ str "}"] else []) ++
    (if x.m ≠ 0 then [str "z^{" ++ decI x.m ++ str "}"] else [])

/-- The loop over the monomials (245-262, 274-303). -/
def printLoop (pieces : Bool → Mono → List (List Char)) (cap : Int) : Bool → List Char → List Mono → Res (List Char)
  | _, buf, [] => .ok buf
  | first, buf, x :: t => do
    let buf ← catAll cap buf (pieces first x)
    printLoop pieces cap false buf t

/-- `poly_to_mathematica` (238-265). -/
def toMathematica (p : List Mono) : Res (List Char) := printLoop mathPieces (128 * p.length + 1) true [] p

/-- `poly_to_latex` (267-306). -/
def toLatex (p : List Mono) : Res (List Char) := printLoop latexPieces (128 * p.length + 1) true [] p

/-! ## The format of lmpoly -/

/-- `lmpoly_cmp` (397-412), as an order. -/
def lmle (a b : Mono) : Bool := if a.m = b.m then decide (a.l - b.l ≤ 0) else decide (a.m - b.m ≤ 0)

/-- `lspan` and `mspan` (414-442): `f` is the power of `l` or `m`. -/
def span (f : Mono → Int) (p : List Mono) : Int :=
  (p.foldl (fun h x => if f x > h then f x else h) (-2147483648)) - (p.foldl (fun h x => if f x < h then f x else h) 2147483647)

/-- `write_lmpoly_lcoeff` (445-460). -/
def writeL (cap : Int) (buf : List Char) (coeff l : Int) : Res (List Char) :=
  if l = 0 then cat cap buf (str "[" ++ decI coeff ++ str "] ") else cat cap buf (decI coeff ++ str " ")

/-- The placeholders for the powers from `l` on (512-513). -/
def writeZeros (cap : Int) : Nat → Int → List Char → Res (List Char)
  | 0, _, buf => .ok buf
  | n + 1, l, buf => do
    let buf ← writeL cap buf 0 l
    writeZeros cap n (l + 1) buf

/-- The loop over the other coefficients of a line (508-519); `l` is the last power. -/
def writeRest (cap : Int) : Int → List Char → List Mono → Res (List Char)
  | _, buf, [] => .ok buf
  | l, buf, x :: t => do
    let buf ← writeZeros cap (x.l - (l + 1)).toNat (l + 1) buf
    let buf ← writeL cap buf x.coeff x.l
    writeRest cap x.l buf t

/-- `write_lmpoly_mline` (463-537). A line has at least one monomial. -/
def writeLine (cap : Int) (buf : List Char) (line : List Mono) : Res (List Char) :=
  match line with
  | [] => .error .ub
  | x :: t => do
    let line := if (line.getLastD x).l < 0 then line ++ [⟨0, 0, x.m⟩] else line
    let line := if x.l > 0 then ⟨0, 0, x.m⟩ :: line else line
    match line with
    | [] => .error .ub
    | y :: t => do
      let buf ← if x.m = 0 then cat cap buf (str "[") else .ok buf
      let buf ← writeL cap buf y.coeff y.l
      let buf ← writeRest cap y.l buf t
      let buf := buf.dropLast
      let buf ← if x.m = 0 then cat cap buf (str "]") else .ok buf
      cat cap buf (str "N")

/-- The placeholder lines (586-590). -/
def writeGap (cap : Int) : Nat → List Char → Res (List Char)
  | 0, buf => .ok buf
  | n + 1, buf => do
    let buf ← cat cap buf (str "[0]N")
    writeGap cap n buf

/-- The loop over the sorted monomials (571-599) and the last line; `line` is the line being filled. -/
def writeLines (cap : Int) : List Mono → List Char → List Mono → Res (List Char)
  | line, buf, [] => writeLine cap buf line
  | line, buf, x :: t =>
    match line.getLast? with
    | none => .error .ub
    | some y =>
      if y.m = x.m then writeLines cap (line ++ [x]) buf t
      else do
        let buf ← writeLine cap buf line
        let buf ← writeGap cap (x.m - (y.m + 1)).toNat buf
        writeLines cap [x] buf t

/-- `polynomial_to_lmpoly` (540-611). -/
def toLmpoly (Q : QSort) (p : List Mono) : Res (List Char) :=
  match Q.sort lmle p with
  | [] => .error .ub
  | x :: t => do
    let cap := span Mono.l (x :: t) * span Mono.m (x :: t) * 256
    let buf ← writeLines cap [x] [] t
    cat cap buf (str " ")

end Plc.Poly
