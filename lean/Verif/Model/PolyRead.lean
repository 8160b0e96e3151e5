import Verif.Model.Poly
import Verif.Model.Vect

/-!
# Reading the output of lmpoly (`src/polynomials.c` 56-236)

The text is a list of characters without the final 0. Indices into the text have become positions in the list.
-/

namespace Plc.Poly

open Plc.Io Plc.Vect

/-- `initiallpower` (polynomials.c 57-76), one character at a time: the flag says that the loop over the characters of a number (69) is running. -/
def initL : Bool → Int → List Char → Int
  | _, p, [] => p
  | true, p, c :: t => if isSpace c then initL false p t else initL true p t
  | false, p, c :: t => if c = '[' then p else if isSpace c then initL false p t else initL true (p - 1) t

/-- The search for the row in double brackets (115-151): `itflag`, `start`, `end` and `initialmpower`. -/
def scan1 : Nat → Int → Nat → Bool → Int → List Char → Bool × Nat × Nat × Int
  | _, _, start, it, mp, [] => (it, start, 0, mp)
  | i, depth, start, it, mp, c :: t =>
    if c = '[' then (if depth = 0 then scan1 (i + 1) (depth + 1) i it mp t else scan1 (i + 1) depth start true mp t)
    else if c = ']' then (if it = true ∧ depth - 1 = 0 then (it, start, i + 1, mp) else scan1 (i + 1) (depth - 1) start it mp t)
    else if c = 'N' then scan1 (i + 1) depth start it (mp - 1) t
    else scan1 (i + 1) depth start it mp t

/-- `lmoutput[i] = ' '` (153-158). The buffer has nine bytes to spare after the final 0, so that writing there makes the text longer. -/
def blank (s : List Char) (i : Nat) : List Char := if i < s.length then s.set i ' ' else s ++ [' ']

/-- The characters at which the number before ends (208). -/
def special (c : Char) : Bool := isSpace c || c == '[' || c == ']' || c == 'N'

/-- The main loop (182-225): `cap` is the number of monomials allocated, `acc` those recorded. `skip` says that the loop to the next special character
(208) is running; this loop does not stop at the end of the text. The coefficient is stored by `sscanf` before it is tested, so there must be room for
it even if it is 0. -/
def readL (cap : Nat) : Bool → Int → Int → List Mono → List Char → Res (List Mono)
  | skip, _, _, acc, [] => if skip then .error .ub else .ok acc
  | skip, mp, lp, acc, c :: t =>
    if skip = true ∧ special c = false then readL cap true mp lp acc t
    else if c = 'N' then readL cap false (mp + 1) (initL false 0 t) acc t
    else if isSpace c = true ∨ c = ']' ∨ c = '[' then readL cap false mp lp acc t
    else
      match scanD (c :: t) with
      | .error e => .error e
      | .ok none => .error .die
      | .ok (some (v, _)) =>
        if acc.length < cap then readL cap true mp (lp + 1) (if v ≠ 0 then acc ++ [⟨v, lp, mp⟩] else acc) t else .error .ub

/-- `lmpoly_to_polynomial` (78-236). -/
def ofLmpoly (Q : QSort) (inp : List Char) : Res (List Mono) :=
  let q := scan1 0 0 0 false 0 inp
  let txt := if q.1 then blank (blank inp q.2.1) q.2.2.1 else inp
  do
    let acc ← readL (txt.count ' ') false q.2.2.2 (initL false 0 txt) [] txt
    .ok (Q.sort mle acc)

end Plc.Poly
