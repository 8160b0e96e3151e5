import Verif.Proofs.SplitPieces

/-! Checking that concrete diagrams in several pieces meet `Scattered`. -/

namespace Plc.Split

open Plc.Core Plc.Cmp Plc.BigonDel Plc.Ok List

def endOf (edge : List Edge) (s : Nat × Or) : Option (Nat × Nat) :=
  edge[s.1]?.bind (fun r => match s.2 with | .pos => some (r.head, r.headpos) | .neg => some (r.tail, r.tailpos) | _ => none)

def beginOf (edge : List Edge) (s : Nat × Or) : Option (Nat × Nat) :=
  edge[s.1]?.bind (fun r => match s.2 with | .pos => some (r.tail, r.tailpos) | .neg => some (r.head, r.headpos) | _ => none)

def turnsB (edge : List Edge) (s t : Nat × Or) : Bool :=
  match endOf edge s with
  | some (c, k) => decide (beginOf edge t = some (c, (k + 3) % 4))
  | none => false

theorem endOf_iff {edge : List Edge} {s : Nat × Or} {c k : Nat} : endOf edge s = some (c, k) ↔ SideEnds edge s c k := by
  obtain ⟨e, o⟩ := s
  unfold endOf SideEnds
  cases edge[e]? <;> cases o <;> simp

theorem beginOf_iff {edge : List Edge} {s : Nat × Or} {c k : Nat} : beginOf edge s = some (c, k) ↔ SideBegins edge s c k := by
  obtain ⟨e, o⟩ := s
  unfold beginOf SideBegins
  cases edge[e]? <;> cases o <;> simp

theorem turnsB_iff {edge : List Edge} {s t : Nat × Or} : turnsB edge s t = true ↔ Turns edge s t := by
  unfold turnsB Turns
  constructor
  · intro h
    split at h
    · rename_i c k hs
      exact ⟨c, k, endOf_iff.mp hs, beginOf_iff.mp (of_decide_eq_true h)⟩
    · cases h
  · rintro ⟨c, k, h1, h2⟩
    rw [endOf_iff.mpr h1]
    exact decide_eq_true (beginOf_iff.mpr h2)

theorem begins_mem {edge : List Edge} {t : Nat × Or} {c k : Nat} (h : SideBegins edge t c k) : t ∈ allSides edge.length := by
  obtain ⟨r, h1, h2⟩ := h
  obtain ⟨e, o⟩ := t
  have := (List.getElem?_eq_some_iff.mp h1).1
  unfold allSides
  rw [List.mem_append, List.mem_map, List.mem_map]
  rcases h2 with ⟨rfl, -⟩ | ⟨rfl, -⟩
  · exact Or.inl ⟨e, List.mem_range.mpr this, rfl⟩
  · exact Or.inr ⟨e, List.mem_range.mpr this, rfl⟩

/-- `fl` numbers the faces, `reps` has one side from each face of the piece with label `i`. -/
theorem planePart_of {cross : List Cross} {edge : List Edge} {lab : Nat → Prop} {code : List Nat} {i : Nat}
    (hlab : ∀ a, a < edge.length → (lab a ↔ code[a]? = some i)) (cs : List Nat) (reps : List (Nat × Or)) (fl : Nat × Or → Nat) (m : Nat)
    (next : Nat × Or → Nat × Or) (hsl : ∀ c k e, slot cross c k = some e → e < edge.length)
    (h1 : cs.Nodup) (h2 : ∀ c < cross.length, c ∈ cs ↔ ∃ k < 4, (slot cross c k).bind (code[·]?) = some i) (h2' : ∀ c ∈ cs, c < cross.length)
    (h3 : reps.length = cs.length + 2) (h4 : ∀ s ∈ reps, s ∈ allSides edge.length ∧ code[s.1]? = some i)
    (h5 : reps.Pairwise (fun x y => fl x ≠ fl y))
    (h6 : ∀ x ∈ allSides edge.length, ∀ y ∈ allSides edge.length, turnsB edge x y = true → fl x = fl y)
    (h7 : ∀ s ∈ allSides edge.length, code[s.1]? = some i → turnsB edge s (next s) = true ∧ code[(next s).1]? = some i)
    (h8 : ∀ s ∈ allSides edge.length, code[s.1]? = some i → ∃ r ∈ reps, ∃ n < m, next^[n] r = s) : PlanePart cross edge lab := by
  refine ⟨cs, reps, h1, ?_, h3, fun s hs => ⟨(h4 s hs).1, (hlab _ (Cut.mem_sides.mp (h4 s hs).1).1).mpr (h4 s hs).2⟩, ?_, ?_⟩
  · intro c
    constructor
    · intro hc
      obtain ⟨k, -, hk⟩ := (h2 c (h2' c hc)).mp hc
      obtain ⟨e, e1, e2⟩ := Option.bind_eq_some_iff.mp hk
      exact ⟨k, e, e1, (hlab e (hsl _ _ _ e1)).mpr e2⟩
    · rintro ⟨k, e, e1, e2⟩
      exact (h2 c (slot_lt e1).1).mpr ⟨k, (slot_lt e1).2, by rw [e1]; exact (hlab e (hsl _ _ _ e1)).mp e2⟩
  · refine h5.imp_of_mem ?_
    intro x y hx _ hne hr
    have : ∀ y, Relation.ReflTransGen (Turns edge) x y → y ∈ allSides edge.length ∧ fl x = fl y := by
      intro y hy
      induction hy with
      | refl => exact ⟨(h4 x hx).1, rfl⟩
      | tail _ ht ih =>
        have hm : _ ∈ allSides edge.length := begins_mem ht.choose_spec.choose_spec.2
        exact ⟨hm, ih.2.trans (h6 _ ih.1 _ hm (turnsB_iff.mpr ht))⟩
    exact hne (this y hr).2
  · intro s hs hl
    obtain ⟨r, r1, n, -, rfl⟩ := h8 s hs ((hlab _ (Cut.mem_sides.mp hs).1).mp hl)
    refine ⟨r, r1, ?_⟩
    have key : ∀ n, Relation.ReflTransGen (Turns edge) r (next^[n] r) ∧ next^[n] r ∈ allSides edge.length ∧ code[(next^[n] r).1]? = some i := by
      intro n
      induction n with
      | zero => exact ⟨.refl, (h4 r r1).1, (h4 r r1).2⟩
      | succ n ih =>
        rw [Function.iterate_succ_apply']
        obtain ⟨a, b⟩ := h7 _ ih.2.1 ih.2.2
        have ht := turnsB_iff.mp a
        exact ⟨ih.1.tail ht, begins_mem ht.choose_spec.choose_spec.2, b⟩
    exact (key n).1

end Plc.Split
