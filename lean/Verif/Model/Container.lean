import Verif.Model.Basic

/-! # Containers (`src/pd_container.c`) -/

namespace Plc.Container

/-- `pd_container_t` (pd_container.h). `elt` is the allocated block (its length is the
number of pointers that fit in it); `none` is `NULL`. Pointers are abstract values. -/
structure Cont (α : Type) where
  elt : List (Option α)
  nelts : Nat
  bufsize : Nat
  initsize : Nat
  deriving DecidableEq

/-- `pd_new_container` (pd_container.c 27-52). -/
def newCont (α : Type) (initsize : Nat) : Cont α :=
  let s := if initsize < 100 then 100 else initsize
  ⟨List.replicate s none, 0, s, s⟩

/-- `for(elt=k; elt<k+c; elt++) buf[elt] = NULL` (pd_container.c 129-133). -/
def clearLoop {α : Type} : Nat → Nat → List (Option α) → Res (List (Option α))
  | 0, _, b => .ok b
  | c + 1, k, b => do
    let b ← wr b k none
    clearLoop c (k + 1) b

/-- `realloc` to `m` elements: keeps the common prefix; what is beyond it is
unspecified, here `junk`. -/
def reallocTo {α : Type} (junk : Option α) (b : List (Option α)) (m : Nat) : List (Option α) :=
  (b ++ List.replicate (m - b.length) junk).take m

/-- `pd_addto_container` (pd_container.c 112-140). The byte count `newsize` is a 32-bit
unsigned number (pointers are 8 bytes), so the block has `newsize / 8` places. `junk` is
whatever `realloc` leaves in fresh memory. -/
def addto {α : Type} (junk : Option α) (c : Cont α) (x : Option α) : Res (Cont α) := do
  let c ← (if c.nelts = c.bufsize - 1 then do
      let newsize := (c.bufsize + c.initsize) * 8 % 2 ^ 32
      let b := reallocTo junk c.elt (newsize / 8)
      let bs := c.bufsize + c.initsize
      let b ← clearLoop (bs - c.nelts) c.nelts b
      .ok { c with elt := b, bufsize := bs }
    else .ok c : Res (Cont α))
  let b ← wr c.elt c.nelts x
  .ok { c with elt := b, nelts := c.nelts + 1 }

/-- `pd_pop_container` (pd_container.c 142-152). On an empty container `nelts-1` wraps
around and the read is out of bounds. -/
def pop {α : Type} (c : Cont α) : Res (Cont α × Option α) :=
  if c.nelts = 0 then .error .ub
  else do
    let x ← rd c.elt (c.nelts - 1)
    let b ← wr c.elt (c.nelts - 1) none
    .ok ({ c with elt := b, nelts := c.nelts - 1 }, x)

/-- `pd_container_elt` (pd_container.c 154-162). -/
def elt {α : Type} (c : Cont α) (i : Nat) : Res (Option α) := do
  assertC (i < c.nelts)
  rd c.elt i

/-- `pd_container_nelts` (pd_container.c 104-110). -/
def nelts {α : Type} (c : Cont α) : Nat := c.nelts

/-- `pd_container_ok` without verbose mode (pd_container.c 188-196). -/
def contOk {α : Type} (c : Cont α) : Bool := !decide (c.nelts ≥ c.bufsize)

end Plc.Container
