import Verif.Proofs.Container

/-! # Property C13: containers (`src/pd_container.c`) -/

namespace Plc.Container

/-- A call made by a client of a container. -/
inductive Call (α : Type) where
  | add (x : Option α)
  | pop
  | get (i : Nat)
  | size
  | ok

/-- What the client sees. -/
inductive Reply (α : Type) where
  | unit
  | val (x : Option α)
  | num (n : Nat)
  | flag (b : Bool)
  deriving DecidableEq

/-- The specification: a stack, oldest element first. Popping an empty stack is
undefined; asking for a position that is not there aborts. -/
def specCall {α : Type} (s : List (Option α)) : Call α → Res (List (Option α) × Reply α)
  | .add x => .ok (s ++ [x], .unit)
  | .pop => match s.getLast? with
    | some x => .ok (s.dropLast, .val x)
    | none => .error .ub
  | .get i => if h : i < s.length then .ok (s, .val s[i]) else .error .die
  | .size => .ok (s, .num s.length)
  | .ok => .ok (s, .flag true)

def specRun {α : Type} : List (Option α) → List (Call α) → Res (List (Reply α))
  | _, [] => .ok []
  | s, o :: os => do
    let (s, r) ← specCall s o
    let rs ← specRun s os
    .ok (r :: rs)

/-- The code, one call at a time. -/
def codeCall {α : Type} (junk : Option α) (c : Cont α) : Call α → Res (Cont α × Reply α)
  | .add x => do let c ← addto junk c x; .ok (c, .unit)
  | .pop => do let (c, x) ← pop c; .ok (c, .val x)
  | .get i => do let x ← elt c i; .ok (c, .val x)
  | .size => .ok (c, .num (nelts c))
  | .ok => .ok (c, .flag (contOk c))

def codeRun {α : Type} (junk : Option α) : Cont α → List (Call α) → Res (List (Reply α))
  | _, [] => .ok []
  | c, o :: os => do
    let (c, r) ← codeCall junk c o
    let rs ← codeRun junk c os
    .ok (r :: rs)

theorem run_eq {α : Type} (junk : Option α) : ∀ (os : List (Call α)) (c : Cont α)
    (s : List (Option α)) (N : Nat), Inv c s → s.length ≤ N → c.bufsize ≤ N + 1 + c.initsize →
    (N + os.length + 1 + 2 * c.initsize) * 8 < 2 ^ 32 →
    codeRun junk c os = specRun s os := by
  intro os
  induction os with
  | nil => intros; rfl
  | cons o os ih =>
    intro c s N h hs hb hN
    simp only [List.length_cons] at hN
    unfold codeRun specRun
    cases o with
    | add x =>
      obtain ⟨c', e1, e2, e3, e4⟩ := addto_spec junk h x (by omega)
      simp only [codeCall, specCall, e1, ok_bind]
      have hl := h.1
      rw [ih c' (s ++ [x]) (N + 1) e2 (by simpa using hs) (by omega) (by omega)]
    | pop =>
      rcases List.eq_nil_or_concat' s with rfl | ⟨t, x, rfl⟩
      · simp [codeCall, specCall, pop, h.1]
      · obtain ⟨c', e1, e2, e3, e4⟩ := pop_spec h
        simp only [List.length_append, List.length_singleton] at hs
        simp only [codeCall, specCall, e1, ok_bind, List.getLast?_concat, List.dropLast_concat]
        rw [ih c' t N e2 (by omega) (by omega) (by omega)]
    | get i =>
      simp only [codeCall, specCall, elt_spec h]
      split
      · simp only [ok_bind]
        rw [ih c s N h hs hb (by omega)]
      · rfl
    | size =>
      simp only [codeCall, specCall, nelts, h.1, ok_bind]
      rw [ih c s N h hs hb (by omega)]
    | ok =>
      have : contOk c = true := by
        have := h.2.2.2.1
        simp [contOk]; omega
      simp only [codeCall, specCall, this, ok_bind]
      rw [ih c s N h hs hb (by omega)]

/-- **C13.** For every initial size and every history of calls (as long as the block size
in bytes fits in 32 bits), a new container answers exactly as a stack does: the same
replies, the same aborts, undefined behaviour only for popping an empty container. In
particular no element is lost when the block grows. -/
theorem C13_container_is_stack {α : Type} (junk : Option α) (init : Nat) (os : List (Call α))
    (h : (os.length + 1 + 2 * max init 100) * 8 < 2 ^ 32) :
    codeRun junk (newCont α init) os = specRun [] os := by
  have hi : (newCont α init).initsize = max init 100 := by
    unfold newCont
    by_cases hc : init < 100
    · simp [if_pos hc]; omega
    · simp [if_neg hc]; omega
  have hb : (newCont α init).bufsize = max init 100 := by rw [← hi]; rfl
  apply run_eq junk os _ [] 0
  · refine ⟨rfl, rfl, ?_, ?_, ?_, ?_⟩
    · unfold newCont; simp
    · rw [hb]; show 0 < _; omega
    · rw [hi]; omega
    · rw [hi, hb]; omega
  · simp
  · omega
  · rw [hi]; omega

/-- A history that makes the block grow (150 elements in a block of 100), then reads. -/
example : codeRun (some 7) (newCont Nat 0)
    ((List.range 150).map (fun i => Call.add (some i)) ++ [.get 120, .pop, .size]) =
    .ok (List.replicate 150 .unit ++ [.val (some 120), .val (some 149), .num 149]) := by
  decide +kernel

/-- **C13, limit.** The byte count is a 32-bit number: when a container of initial size
`2^28` is full and has to grow for the first time, the new block has no room at all and
the next call writes outside it. -/
theorem C13_growth_wraps {α : Type} (junk x : Option α) (c : Cont α)
    (h1 : c.bufsize = 2 ^ 28) (h2 : c.initsize = 2 ^ 28) (h3 : c.nelts = 2 ^ 28 - 1) :
    addto junk c x = .error .ub := by
  unfold addto
  have e : (c.bufsize + c.initsize) * 8 % 2 ^ 32 = 0 := by rw [h1, h2]; decide
  have hc : c.nelts = c.bufsize - 1 := by rw [h1, h3]
  have e2 : c.bufsize + c.initsize - c.nelts = 268435456 + 1 := by rw [h1, h2, h3]; decide
  simp only [if_pos hc, e, e2]
  have e3 : reallocTo junk c.elt (0 / 8) = [] := by simp [reallocTo]
  rw [e3, clearLoop]
  simp [wr]

end Plc.Container
