import Verif.Model.Basic

/-! # Pieces of the diagram hash (`src/pdcode.c` 1258-1361) -/

namespace Plc.Hash

/-- `pd_buf_cmp` (pdcode.c 1291-1303) on two buffers of the same length. -/
def bufCmp : List Nat → List Nat → Int
  | a :: l, b :: m => if a < b then -1 else if a > b then 1 else bufCmp l m
  | _, _ => 0

/-- `buf[(i+j)%len]` for `j = j, j+1, ..., j+c-1` (pdcode.c 1327-1331). `i + j` is a 32-bit
sum, exact for buffers shorter than 2^31. -/
def window (buf : List Nat) (i : Nat) : Nat → Nat → Res (List Nat)
  | 0, _ => .ok []
  | c + 1, j => do
    let x ← rd buf ((i + j) % buf.length)
    let r ← window buf i c (j + 1)
    .ok (x :: r)

/-- The loop over starting places (pdcode.c 1325-1339 and 1343-1357), `c` rounds left. In the
second loop `curbuf[len-1-j]` is written, so the window appears reversed. -/
def tryAll (buf : List Nat) (rev : Bool) : Nat → Nat → List Nat → Res (List Nat)
  | 0, _, best => .ok best
  | c + 1, i, best => do
    let w ← window buf i buf.length 0
    let cur := if rev then w.reverse else w
    tryAll buf rev c (i + 1) (if bufCmp cur best < 0 then cur else best)

/-- `pd_canonicalorder` (pdcode.c 1305-1361). -/
def canonicalorder (buf : List Nat) : Res (List Nat) := do
  let best ← tryAll buf false buf.length 0 buf
  tryAll buf true buf.length 0 best

/-- `cb64` (pdcode.c 1261). -/
def cb64 : List Char :=
  "ABCDEFGHIJKLMNOPQRSTUVWXYZabcdefghijklmnopqrstuvwxyz0123456789+/".toList

/-- `encodeblock` with `len = 3` (pdcode.c 1268-1274), the only way it is called. Bytes are
numbers below 256. -/
def encodeblock (a b c : Nat) : Res (List Char) := do
  let w ← rd cb64 (a >>> 2)
  let x ← rd cb64 (((a &&& 0x03) <<< 4) ||| ((b &&& 0xf0) >>> 4))
  let y ← rd cb64 (((b &&& 0x0f) <<< 2) ||| ((c &&& 0xc0) >>> 6))
  let z ← rd cb64 (c &&& 0x3f)
  .ok [w, x, y, z]

/-- `base64encode` (pdcode.c 1276-1286) on a whole number of three-byte groups; the C function
is called with 24 bytes. -/
def base64encode : List Nat → Res (List Char)
  | a :: b :: c :: l => do
    let x ← encodeblock a b c
    let r ← base64encode l
    .ok (x ++ r)
  | _ => .ok []

end Plc.Hash
