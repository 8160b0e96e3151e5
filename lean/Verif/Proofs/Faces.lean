import Verif.Model.Faces
import Verif.Proofs.Comps
import Mathlib.Data.List.Rotate

namespace Plc.Faces

open Plc.Core Plc.Cmp Plc.Edges Plc.Places Plc.Orbit Plc.Comps

/-! ### Tracking the cycles of a map -/

section

variable {α : Type} [DecidableEq α]

/-- The cycles of `starts` have been numbered in `look`, and nothing else. -/
structure Track (f : α → α) (S : Finset α) (starts : List α) (look : α → Asg) : Prop where
  mem : ∀ x ∈ starts, x ∈ S
  sep : starts.Pairwise (fun x y => y ∉ cyc f x)
  on : ∀ c (h : c < starts.length) i, i < per f starts[c] → look (f^[i] starts[c]) = some (c, i)
  off : ∀ x ∈ S, (∀ s ∈ starts, x ∉ cyc f s) → look x = none

omit [DecidableEq α] in
theorem Track.fresh {f : α → α} {S : Finset α} {starts : List α} {look : α → Asg}
    (hT : Track f S starts look) {s : α} (hs : look s = none) :
    ∀ x ∈ starts, s ∉ cyc f x := by
  intro x hx hc
  obtain ⟨c, hc', rfl⟩ := List.getElem_of_mem hx
  obtain ⟨i, hi, e⟩ := List.mem_map.mp hc
  rw [List.mem_range] at hi
  have := hT.on c hc' i hi
  rw [e, hs] at this
  simp at this

theorem Track.step {f : α → α} {S : Finset α} (hI : InjOn f S) {starts : List α} {look look' : α → Asg}
    (hT : Track f S starts look) {s : α} (hsS : s ∈ S) (hs : look s = none)
    (h1 : ∀ i, i < per f s → look' (f^[i] s) = some (starts.length, i))
    (h2 : ∀ x, x ∉ cyc f s → look' x = look x) : Track f S (starts ++ [s]) look' := by
  have hnew := hT.fresh hs
  have hdis : ∀ x ∈ starts, ∀ i, f^[i] x ∉ cyc f s := by
    intro x hx i hc
    have hx' := hT.mem x hx
    exact hnew x hx (hI.cyc_meet hx' hsS ((hI.mem_cyc hx').mpr ⟨i, rfl⟩) hc)
  refine ⟨?_, ?_, ?_, ?_⟩
  · intro x hx
    rw [List.mem_append, List.mem_singleton] at hx
    rcases hx with hx | rfl
    · exact hT.mem x hx
    · exact hsS
  · rw [List.pairwise_append]
    refine ⟨hT.sep, by simp, ?_⟩
    intro x hx y hy
    rw [List.mem_singleton] at hy
    subst hy
    exact hnew x hx
  · intro c hc i hi
    by_cases hcl : c < starts.length
    · have e : (starts ++ [s])[c] = starts[c] := List.getElem_append_left hcl
      rw [e] at hi ⊢
      rw [h2 _ (hdis _ (List.getElem_mem hcl) i)]
      exact hT.on c hcl i hi
    · have hce : c = starts.length := by simp at hc; omega
      subst hce
      have e : (starts ++ [s])[starts.length] = s := by simp
      rw [e] at hi ⊢
      exact h1 i hi
  · intro x hx hxs
    rw [h2 x (hxs s (by simp))]
    exact hT.off x hx (fun y h => hxs y (by simp [h]))

theorem Track.covers {f : α → α} {S : Finset α} {starts : List α} {look : α → Asg}
    (hT : Track f S starts look) {x : α} (hx : x ∈ S) (hn : look x ≠ none) :
    ∃ s ∈ starts, x ∈ cyc f s := by
  by_contra hc
  push Not at hc
  exact hn (hT.off x hx hc)

theorem Track.back {f : α → α} {S : Finset α} {starts : List α} {look : α → Asg}
    (hT : Track f S starts look) {x : α} (hx : x ∈ S) {c p : Nat} (h : look x = some (c, p)) :
    ∃ h : c < starts.length, p < per f starts[c] ∧ f^[p] starts[c] = x := by
  obtain ⟨s, hs, hxs⟩ := hT.covers hx (by rw [h]; simp)
  obtain ⟨c', hc', rfl⟩ := List.getElem_of_mem hs
  obtain ⟨i, hi, rfl⟩ := List.mem_map.mp hxs
  rw [List.mem_range] at hi
  have := hT.on c' hc' i hi
  rw [h] at this
  simp only [Option.some.injEq, Prod.mk.injEq] at this
  obtain ⟨rfl, rfl⟩ := this
  exact ⟨hc', hi, rfl⟩

theorem Track.flat {f : α → α} {S : Finset α} (hI : InjOn f S) {starts : List α} {look : α → Asg}
    (hT : Track f S starts look) (hall : ∀ x ∈ S, look x ≠ none) :
    (starts.flatMap (cyc f)).Nodup ∧ ∀ x, x ∈ starts.flatMap (cyc f) ↔ x ∈ S := by
  refine ⟨hI.flat_nodup hT.mem hT.sep, ?_⟩
  intro x
  rw [List.mem_flatMap]
  constructor
  · rintro ⟨s, hs, hx⟩; exact hI.cyc_subset (hT.mem s hs) hx
  · intro hx; exact hT.covers hx (hall x hx)

end

/-! ### Sides of edges -/

/-- A side of an edge: the edge and the direction in which a face runs along it. -/
abbrev Dart := Nat × Or

/-- All sides. -/
def D (edge : List Edge) : Finset Dart := Finset.range edge.length ×ˢ {Or.pos, Or.neg}

theorem mem_D {edge : List Edge} {d : Dart} : d ∈ D edge ↔ d.1 < edge.length ∧ (d.2 = .pos ∨ d.2 = .neg) := by
  unfold D
  rw [Finset.mem_product, Finset.mem_range, Finset.mem_insert, Finset.mem_singleton]

/-- Where a side ends. -/
def endp (edge : List Edge) (d : Dart) : Nat × Nat := if d.2 = .pos then hd edge[d.1]! else tl edge[d.1]!

/-- Where it begins. -/
def begp (edge : List Edge) (d : Dart) : Nat × Nat := if d.2 = .pos then tl edge[d.1]! else hd edge[d.1]!

/-- The side beginning at a place. -/
def dartAt (cross : List Cross) (edge : List Edge) (p : Nat × Nat) : Dart :=
  if hd edge[eslot cross p]! = p then (eslot cross p, .neg) else (eslot cross p, .pos)

/-- The next side on the same face. -/
def nd (cross : List Cross) (edge : List Edge) (d : Dart) : Dart :=
  dartAt cross edge (turn 3 (endp edge d))

section

variable {cross : List Cross} {edge : List Edge} (hC : Consistent cross edge)

include hC

theorem endp_mem {d : Dart} (h : d ∈ D edge) : endp edge d ∈ P cross ∧ eslot cross (endp edge d) = d.1 := by
  rw [mem_D] at h
  unfold endp
  split
  · exact hd_mem hC h.1
  · exact tl_mem hC h.1

theorem begp_mem {d : Dart} (h : d ∈ D edge) : begp edge d ∈ P cross ∧ eslot cross (begp edge d) = d.1 := by
  rw [mem_D] at h
  unfold begp
  split
  · exact tl_mem hC h.1
  · exact hd_mem hC h.1

theorem dartAt_mem {p : Nat × Nat} (h : p ∈ P cross) : dartAt cross edge p ∈ D edge := by
  have := eslot_lt hC h
  unfold dartAt
  rw [mem_D]
  split <;> simp [this]

theorem begp_dartAt {p : Nat × Nat} (h : p ∈ P cross) : begp edge (dartAt cross edge p) = p := by
  unfold dartAt
  split
  · rename_i he
    simpa [begp] using he
  · rename_i he
    have := ends_at hC h
    simp only [begp, if_true]
    rcases this with h1 | h1
    · exact absurd h1 he
    · exact h1

theorem endp_inj {d d' : Dart} (h : d ∈ D edge) (h' : d' ∈ D edge) (he : endp edge d = endp edge d') :
    d = d' := by
  have e1 : d.1 = d'.1 := by rw [← (endp_mem hC h).2, ← (endp_mem hC h').2, he]
  rw [mem_D] at h h'
  have hne := hd_ne_tl hC h.1
  obtain ⟨e, o⟩ := d
  obtain ⟨e', o'⟩ := d'
  simp only at e1 h h'
  subst e1
  unfold endp at he
  simp only at he hne
  generalize edge[e]! = r at he hne
  rcases h.2 with rfl | rfl <;> rcases h'.2 with rfl | rfl <;> simp at he ⊢
  · exact hne he
  · exact hne he.symm

theorem begp_inj {d d' : Dart} (h : d ∈ D edge) (h' : d' ∈ D edge) (he : begp edge d = begp edge d') :
    d = d' := by
  have e1 : d.1 = d'.1 := by rw [← (begp_mem hC h).2, ← (begp_mem hC h').2, he]
  rw [mem_D] at h h'
  have hne := hd_ne_tl hC h.1
  obtain ⟨e, o⟩ := d
  obtain ⟨e', o'⟩ := d'
  simp only at e1 h h'
  subst e1
  unfold begp at he
  simp only at he hne
  generalize edge[e]! = r at he hne
  rcases h.2 with rfl | rfl <;> rcases h'.2 with rfl | rfl <;> simp at he ⊢
  · exact hne he.symm
  · exact hne he

theorem injOn_nd : InjOn (nd cross edge) (D edge) where
  maps := fun _ hx => dartAt_mem hC (turn_mem 3 (endp_mem hC hx).1)
  inj := by
    intro x hx y hy e
    have h1 := begp_dartAt hC (turn_mem 3 (endp_mem hC hx).1)
    have h2 := begp_dartAt hC (turn_mem 3 (endp_mem hC hy).1)
    unfold nd at e
    rw [e, h2] at h1
    have := congrArg (turn 1) h1
    rw [turn_turn (endp_mem hC hx).1 1 3 (by decide), turn_turn (endp_mem hC hy).1 1 3 (by decide)] at this
    exact endp_inj hC hx hy this.symm

theorem nextOnFace_ok {d : Dart} (hd' : d ∈ D edge) :
    nextOnFace cross edge d.1 d.2 = .ok (nd cross edge d) := by
  have hm := mem_D.mp hd'
  have he := endp_mem hC hd'
  have ht := turn_mem 3 he.1
  have hnlt := eslot_lt hC ht
  have hp := mem_P.mp he.1
  have hends := ends_at hC ht
  obtain ⟨c, k, hck⟩ : ∃ c k, endp edge d = (c, k) := ⟨_, _, rfl⟩
  have htk : turn 3 (endp edge d) = (c, (k + 3) % 4) := by rw [hck]; rfl
  have hsel : (if d.2 = Or.pos then (edge[d.1]!.head, edge[d.1]!.headpos) else
      (edge[d.1]!.tail, edge[d.1]!.tailpos)) = (c, k) := hck
  rw [htk] at ht hnlt hends
  rw [hck] at hp
  simp only at hp
  have hslot := slot_eslot ht
  have r4 : cross[c].rdPos ((k + 3) % 4) = .ok (eslot cross (c, (k + 3) % 4)) := by
    rw [Cross.rdPos_lt (Nat.mod_lt _ (by decide))]
    congr 1
    exact (eslot_of_slot (p := (c, (k + 3) % 4)) (slot_of_lt hp.1 (Nat.mod_lt _ (by decide)))).symm
  unfold nextOnFace
  rw [assertC_ok (by simpa using hm.1), ok_bind, assertC_ok (by simpa using hm.2), ok_bind,
    rd_bang hm.1, ok_bind, hsel]
  simp only
  rw [rd_lt hp.1, ok_bind, r4, ok_bind, rd_bang hnlt, ok_bind]
  unfold nd
  rw [htk]
  unfold dartAt
  obtain ⟨x, hx⟩ : ∃ x, x = edge[eslot cross (c, (k + 3) % 4)]! := ⟨_, rfl⟩
  rw [← hx] at hends ⊢
  have hhd : hd x = (c, (k + 3) % 4) ↔ x.head = c ∧ x.headpos = (k + 3) % 4 := by
    unfold hd; rw [Prod.mk.injEq]
  have htl : tl x = (c, (k + 3) % 4) ↔ x.tail = c ∧ x.tailpos = (k + 3) % 4 := by
    unfold tl; rw [Prod.mk.injEq]
  have hor : (x.head = c ∧ x.headpos = (k + 3) % 4) ∨ (x.tail = c ∧ x.tailpos = (k + 3) % 4) := by
    rcases hends with h | h
    · exact Or.inl (hhd.mp h)
    · exact Or.inr (htl.mp h)
  rw [assertC_ok (by rcases hor with h | h <;> simp [h.1]), ok_bind]
  have hfin : (if x.head = c ∧ x.headpos = (k + 3) % 4 then
      (Except.ok (eslot cross (c, (k + 3) % 4), Or.neg) : Res Dart)
      else .ok (eslot cross (c, (k + 3) % 4), Or.pos)) =
      .ok (if hd x = (c, (k + 3) % 4) then (eslot cross (c, (k + 3) % 4), Or.neg)
        else (eslot cross (c, (k + 3) % 4), Or.pos)) := by
    simp only [hhd]
    split <;> rfl
  rw [hfin]
  split
  · rename_i h
    rw [assertC_ok, ok_bind]
    rcases hor with h' | h'
    · simp [h'.2]
    · exact absurd h'.1 h.2
  · split
    · rename_i h
      rw [assertC_ok, ok_bind]
      rcases hor with h' | h'
      · exact absurd h'.1 h.2
      · simp [h'.2]
    · rw [assertC_ok, ok_bind]
      rcases hor with h' | h' <;> simp [h'.2]

end

/-! ### One face -/

/-- The entry for a side. -/
def look (a : FAsg) (d : Dart) : Asg := if d.2 = .pos then (a.pos[d.1]?).join else (a.neg[d.1]?).join

theorem assign_ok {a : FAsg} {m : Nat} (h1 : a.pos.length = m) (h2 : a.neg.length = m) {d : Dart}
    (hd : d.1 < m ∧ (d.2 = .pos ∨ d.2 = .neg)) (face pos : Nat) :
    ∃ a', assign a d.1 d.2 face pos = .ok a' ∧ a'.pos.length = m ∧ a'.neg.length = m ∧
      look a' d = some (face, pos) ∧
      ∀ d', (d'.2 = .pos ∨ d'.2 = .neg) → d' ≠ d → look a' d' = look a d' := by
  obtain ⟨e, o⟩ := d
  obtain ⟨he, ho⟩ := hd
  simp only at he ho
  unfold assign
  rw [assertC_ok (by simpa using ho), ok_bind]
  rcases ho with rfl | rfl
  · rw [if_pos rfl, wr_lt (by omega), ok_bind]
    refine ⟨_, rfl, by simpa using h1, h2, ?_, ?_⟩
    · unfold look
      simp only [if_true]
      rw [List.getElem?_set_self (by omega)]
      rfl
    · rintro ⟨e', o'⟩ ho' hne
      unfold look
      simp only at ho' ⊢
      split
      · rename_i hp
        subst hp
        rw [List.getElem?_set_ne]
        rintro rfl
        exact hne rfl
      · rfl
  · rw [if_neg (by simp), wr_lt (by omega), ok_bind]
    refine ⟨_, rfl, h1, by simpa using h2, ?_, ?_⟩
    · unfold look
      simp only [reduceCtorEq, if_false]
      rw [List.getElem?_set_self (by omega)]
      rfl
    · rintro ⟨e', o'⟩ ho' hne
      unfold look
      simp only at ho' ⊢
      split
      · rfl
      · rename_i hp
        rcases ho' with rfl | rfl
        · exact absurd rfl hp
        · rw [List.getElem?_set_ne]
          rintro rfl
          exact hne rfl

section

variable {cross : List Cross} {edge : List Edge} (hC : Consistent cross edge)

include hC

/-- The loop around a face numbers its sides in order, or the face has more sides than there
are edges. -/
theorem walkFace_spec {s : Dart} (hs : s ∈ D edge) (face : Nat) : ∀ (k r j : Nat) (a : FAsg),
    j + 1 + k = per (nd cross edge) s → r + j = edge.length → a.pos.length = edge.length →
    a.neg.length = edge.length →
    (∃ a', walkFace cross edge s.1 s.2 face r ((nd cross edge)^[j] s).1 ((nd cross edge)^[j] s).2 j a =
        .ok (a', per (nd cross edge) s) ∧ a'.pos.length = edge.length ∧ a'.neg.length = edge.length ∧
      (∀ i, j ≤ i → i < per (nd cross edge) s →
        look a' ((nd cross edge)^[i] s) = some (face, i)) ∧
      (∀ d, (d.2 = .pos ∨ d.2 = .neg) →
        (∀ i, j ≤ i → i < per (nd cross edge) s → (nd cross edge)^[i] s ≠ d) → look a' d = look a d)) ∨
    (walkFace cross edge s.1 s.2 face r ((nd cross edge)^[j] s).1 ((nd cross edge)^[j] s).2 j a =
      .error .die ∧ edge.length < per (nd cross edge) s) := by
  have hI := injOn_nd hC
  intro k
  induction k with
  | zero =>
    intro r j a hk hr h1 h2
    have hm := hI.iterate_mem hs j
    obtain ⟨a', g1, g2, g3, g4, g5⟩ := assign_ok h1 h2 (mem_D.mp hm) face j
    match r with
    | 0 =>
      right
      unfold walkFace
      rw [g1, ok_bind]
      exact ⟨rfl, by omega⟩
    | r + 1 =>
      left
      have hnx : nd cross edge ((nd cross edge)^[j] s) = s := by
        rw [← Function.iterate_succ_apply' (nd cross edge) j s,
          show Nat.succ j = per (nd cross edge) s by omega]
        exact iterate_per _ _
      refine ⟨a', ?_, g2, g3, ?_, ?_⟩
      · unfold walkFace
        rw [g1, ok_bind, nextOnFace_ok hC hm, ok_bind, hnx]
        simp only
        rw [if_pos (by simp), show j + 1 = per (nd cross edge) s by omega]
      · intro i hi1 hi2
        obtain rfl : i = j := by omega
        exact g4
      · intro d hd hne
        exact g5 d hd (fun e => hne j (Nat.le_refl _) (by omega) e.symm)
  | succ k ih =>
    intro r j a hk hr h1 h2
    have hm := hI.iterate_mem hs j
    obtain ⟨a', g1, g2, g3, g4, g5⟩ := assign_ok h1 h2 (mem_D.mp hm) face j
    match r with
    | 0 =>
      right
      unfold walkFace
      rw [g1, ok_bind]
      exact ⟨rfl, by omega⟩
    | r + 1 =>
      have hne : ¬ ((nd cross edge ((nd cross edge)^[j] s)).1 = s.1 ∧
          (nd cross edge ((nd cross edge)^[j] s)).2 = s.2) := by
        rintro ⟨e1, e2⟩
        have := Prod.ext e1 e2
        rw [← Function.iterate_succ_apply' (nd cross edge) j s] at this
        exact ne_of_lt_per (by omega) (by omega) this
      have hun : walkFace cross edge s.1 s.2 face (r + 1) ((nd cross edge)^[j] s).1
          ((nd cross edge)^[j] s).2 j a = walkFace cross edge s.1 s.2 face r
          ((nd cross edge)^[j + 1] s).1 ((nd cross edge)^[j + 1] s).2 (j + 1) a' := by
        conv_lhs => unfold walkFace
        rw [g1, ok_bind, nextOnFace_ok hC hm, ok_bind]
        simp only
        rw [if_neg hne, Function.iterate_succ_apply' (nd cross edge) j s]
      rw [hun]
      rcases ih r (j + 1) a' (by omega) (by omega) g2 g3 with ⟨a'', f1, f2, f3, f4, f5⟩ | h
      · left
        refine ⟨a'', f1, f2, f3, ?_, ?_⟩
        · intro i hi1 hi2
          by_cases hij : i = j
          · subst hij
            rw [f5 _ (mem_D.mp hm).2, g4]
            intro i' h3 h4 e
            have := iterate_inj_lt h4 hi2 e
            omega
          · exact f4 i (by omega) hi2
        · intro d hd hne'
          rw [f5 d hd (fun i h3 h4 => hne' i (by omega) h4)]
          exact g5 d hd (fun e => hne' j (Nat.le_refl _) (by omega) e.symm)
      · exact Or.inr h

end

/-! ### All faces -/

theorem findUnassigned_min : ∀ (l : List Asg) (i : Nat),
    (∀ e, findUnassigned l i = some e → ∀ k, i ≤ k → k < e → ∃ x, l[k - i]? = some (some x)) ∧
    (findUnassigned l i = none → ∀ k, k < l.length → ∃ x, l[k]? = some (some x))
  | [], i => by simp [findUnassigned]
  | none :: l, i => by
    unfold findUnassigned
    refine ⟨?_, by simp⟩
    intro e he k h1 h2
    simp at he
    omega
  | some a :: l, i => by
    have ih := findUnassigned_min l (i + 1)
    unfold findUnassigned
    refine ⟨?_, ?_⟩
    · intro e he k h1 h2
      by_cases hk : k = i
      · subst hk; exact ⟨a, by simp⟩
      · obtain ⟨x, hx⟩ := ih.1 e he k (by omega) h2
        refine ⟨x, ?_⟩
        rw [show k - i = k - (i + 1) + 1 by omega]
        simpa using hx
    · intro h k hk
      cases k with
      | zero => exact ⟨a, by simp⟩
      | succ k =>
        obtain ⟨x, hx⟩ := ih.2 h k (by simpa using hk)
        exact ⟨x, by simpa using hx⟩

/-- Sides in the order in which they are searched. -/
def rank (m : Nat) (d : Dart) : Nat := if d.2 = .pos then d.1 else m + d.1

theorem nextUnassigned_spec {a : FAsg} {m : Nat} (h1 : a.pos.length = m) (h2 : a.neg.length = m)
    {s : Dart} (hs : s.1 < m ∧ (s.2 = .pos ∨ s.2 = .neg))
    (hdone : ∀ d : Dart, d.1 < m → (d.2 = .pos ∨ d.2 = .neg) → rank m d ≤ rank m s → look a d ≠ none) :
    (nextUnassigned a s.1 s.2 = .ok none ∧
      ∀ d : Dart, d.1 < m → (d.2 = .pos ∨ d.2 = .neg) → look a d ≠ none) ∨
    (∃ t : Dart, nextUnassigned a s.1 s.2 = .ok (some t) ∧ t.1 < m ∧ (t.2 = .pos ∨ t.2 = .neg) ∧
      look a t = none ∧
      ∀ d : Dart, d.1 < m → (d.2 = .pos ∨ d.2 = .neg) → rank m d < rank m t → look a d ≠ none) := by
  obtain ⟨e, o⟩ := s
  obtain ⟨he, ho⟩ := hs
  simp only at he ho
  have hposdone : ∀ k, k ≤ e → ∀ d : Dart, d.1 = k → d.2 = .pos → rank m d ≤ rank m (e, o) := by
    intro k hk d h3 h4
    unfold rank
    rw [if_pos h4]
    split <;> simp only <;> omega
  unfold nextUnassigned
  rw [assertC_ok (by simpa [h1] using he), ok_bind, assertC_ok (by simpa using ho), ok_bind]
  -- what the searches say
  have hp1 := findUnassigned_spec (a.pos.drop (e + 1)) (e + 1)
  have hp2 := findUnassigned_min (a.pos.drop (e + 1)) (e + 1)
  have hn1 := findUnassigned_spec a.neg 0
  have hn2 := findUnassigned_min a.neg 0
  have hm1 := findUnassigned_spec (a.neg.drop (e + 1)) (e + 1)
  have hm2 := findUnassigned_min (a.neg.drop (e + 1)) (e + 1)
  have lookp : ∀ k x, a.pos[k]? = some (some x) → look a (k, .pos) ≠ none := by
    intro k x hk; simp [look, hk]
  have lookn : ∀ k x, a.neg[k]? = some (some x) → look a (k, .neg) ≠ none := by
    intro k x hk; simp [look, hk]
  have lookp0 : ∀ k, a.pos[k]? = some none → look a (k, .pos) = none := by
    intro k hk; simp [look, hk]
  have lookn0 : ∀ k, a.neg[k]? = some none → look a (k, .neg) = none := by
    intro k hk; simp [look, hk]
  rcases ho with rfl | rfl
  · rw [if_pos rfl]
    match hf : findUnassigned (a.pos.drop (e + 1)) (e + 1) with
    | some e' =>
      right
      obtain ⟨g1, g2⟩ := hp1.1 e' hf
      rw [List.getElem?_drop, show e + 1 + (e' - (e + 1)) = e' by omega] at g2
      have hlt := (List.getElem?_eq_some_iff.mp g2).1
      refine ⟨(e', .pos), rfl, by simp only; omega, Or.inl rfl, lookp0 e' g2, ?_⟩
      rintro ⟨d, od⟩ hd1 hd2 hr
      simp only at hd1 hd2
      rcases hd2 with rfl | rfl
      · by_cases hde : d ≤ e
        · exact hdone _ hd1 (Or.inl rfl) (hposdone d hde _ rfl rfl)
        · simp only [rank, if_true] at hr
          obtain ⟨x, hx⟩ := hp2.1 e' hf d (by omega) hr
          rw [List.getElem?_drop, show e + 1 + (d - (e + 1)) = d by omega] at hx
          exact lookp d x hx
      · simp [rank] at hr
        omega
    | none =>
      have hallp : ∀ k, k < m → look a (k, .pos) ≠ none := by
        intro k hk
        by_cases hke : k ≤ e
        · exact hdone _ hk (Or.inl rfl) (hposdone k hke _ rfl rfl)
        · obtain ⟨x, hx⟩ := hp2.2 hf (k - (e + 1)) (by simp; omega)
          rw [List.getElem?_drop, show e + 1 + (k - (e + 1)) = k by omega] at hx
          exact lookp k x hx
      simp only
      match hg : findUnassigned a.neg 0 with
      | some e' =>
        right
        obtain ⟨g1, g2⟩ := hn1.1 e' hg
        rw [Nat.sub_zero] at g2
        have hlt := (List.getElem?_eq_some_iff.mp g2).1
        refine ⟨(e', .neg), rfl, by simp only; omega, Or.inr rfl, lookn0 e' g2, ?_⟩
        rintro ⟨d, od⟩ hd1 hd2 hr
        simp only at hd1 hd2
        rcases hd2 with rfl | rfl
        · exact hallp d hd1
        · simp [rank] at hr
          obtain ⟨x, hx⟩ := hn2.1 e' hg d (by omega) hr
          rw [Nat.sub_zero] at hx
          exact lookn d x hx
      | none =>
        left
        refine ⟨rfl, ?_⟩
        rintro ⟨d, od⟩ hd1 hd2
        simp only at hd1 hd2
        rcases hd2 with rfl | rfl
        · exact hallp d hd1
        · obtain ⟨x, hx⟩ := hn2.2 hg d (by omega)
          exact lookn d x hx
  · rw [if_neg (by simp)]
    have hallp : ∀ k, k < m → look a (k, .pos) ≠ none := by
      intro k hk
      exact hdone _ hk (Or.inl rfl) (by simp [rank]; omega)
    match hf : findUnassigned (a.neg.drop (e + 1)) (e + 1) with
    | some e' =>
      right
      obtain ⟨g1, g2⟩ := hm1.1 e' hf
      rw [List.getElem?_drop, show e + 1 + (e' - (e + 1)) = e' by omega] at g2
      have hlt := (List.getElem?_eq_some_iff.mp g2).1
      refine ⟨(e', .neg), rfl, by simp only; omega, Or.inr rfl, lookn0 e' g2, ?_⟩
      rintro ⟨d, od⟩ hd1 hd2 hr
      simp only at hd1 hd2
      rcases hd2 with rfl | rfl
      · exact hallp d hd1
      · by_cases hde : d ≤ e
        · exact hdone _ hd1 (Or.inr rfl) (by simp [rank]; omega)
        · simp [rank] at hr
          obtain ⟨x, hx⟩ := hm2.1 e' hf d (by omega) hr
          rw [List.getElem?_drop, show e + 1 + (d - (e + 1)) = d by omega] at hx
          exact lookn d x hx
    | none =>
      left
      refine ⟨rfl, ?_⟩
      rintro ⟨d, od⟩ hd1 hd2
      simp only at hd1 hd2
      rcases hd2 with rfl | rfl
      · exact hallp d hd1
      · by_cases hde : d ≤ e
        · exact hdone _ hd1 (Or.inr rfl) (by simp [rank]; omega)
        · obtain ⟨x, hx⟩ := hm2.2 hf (d - (e + 1)) (by simp; omega)
          rw [List.getElem?_drop, show e + 1 + (d - (e + 1)) = d by omega] at hx
          exact lookn d x hx

section

variable {cross : List Cross} {edge : List Edge} (hC : Consistent cross edge)

include hC

/-- The loop over faces numbers all sides, or stops the program because a face has more sides
than there are edges, or because there are more faces than allowed. -/
theorem facesLoop_spec {maxfaces : Nat} : ∀ (r : Nat) (s : Dart) (starts : List Dart) (a : FAsg),
    starts.length + r = maxfaces → a.pos.length = edge.length → a.neg.length = edge.length →
    Track (nd cross edge) (D edge) starts (look a) → s ∈ D edge → look a s = none →
    (∀ d ∈ D edge, rank edge.length d < rank edge.length s → look a d ≠ none) →
    (∃ starts' a', facesLoop cross edge r starts.length s.1 s.2 a
          (starts.map (per (nd cross edge))) = .ok (a', starts'.map (per (nd cross edge))) ∧
        a'.pos.length = edge.length ∧ a'.neg.length = edge.length ∧
        Track (nd cross edge) (D edge) starts' (look a') ∧ starts'.length ≤ maxfaces ∧
        ∀ d ∈ D edge, look a' d ≠ none) ∨
    (facesLoop cross edge r starts.length s.1 s.2 a (starts.map (per (nd cross edge))) = .error .die ∧
      ((∃ d ∈ D edge, edge.length < per (nd cross edge) d) ∨
       ∃ starts' : List Dart, (∀ d ∈ starts', d ∈ D edge) ∧
         starts'.Pairwise (fun x y => y ∉ cyc (nd cross edge) x) ∧ maxfaces < starts'.length)) := by
  have hI := injOn_nd hC
  intro r
  induction r with
  | zero =>
    intro s starts a hr h1 h2 hT hs hls hrank
    right
    have hm := mem_D.mp hs
    have hpp := hI.per_pos hs
    unfold facesLoop
    rw [assertC_ok (by simpa using hm), ok_bind]
    rcases walkFace_spec hC hs starts.length (per (nd cross edge) s - 1) edge.length 0 a (by omega) (by omega)
      h1 h2 with ⟨a', f1, _⟩ | ⟨f1, f2⟩
    · have f1' : walkFace cross edge s.1 s.2 starts.length edge.length s.1 s.2 0 a =
        .ok (a', per (nd cross edge) s) := f1
      rw [f1', ok_bind]
      refine ⟨rfl, Or.inr ⟨starts ++ [s], ?_, ?_, by simp; omega⟩⟩
      · intro d hd
        rw [List.mem_append, List.mem_singleton] at hd
        rcases hd with hd | rfl
        · exact hT.mem d hd
        · exact hs
      · rw [List.pairwise_append]
        refine ⟨hT.sep, by simp, ?_⟩
        intro x hx y hy
        rw [List.mem_singleton] at hy
        subst hy
        exact hT.fresh hls x hx
    · have f1' : walkFace cross edge s.1 s.2 starts.length edge.length s.1 s.2 0 a = .error .die := f1
      rw [f1', error_bind]
      exact ⟨rfl, Or.inl ⟨s, hs, f2⟩⟩
  | succ r ih =>
    intro s starts a hr h1 h2 hT hs hls hrank
    have hm := mem_D.mp hs
    have hpp := hI.per_pos hs
    unfold facesLoop
    rw [assertC_ok (by simpa using hm), ok_bind]
    rcases walkFace_spec hC hs starts.length (per (nd cross edge) s - 1) edge.length 0 a (by omega) (by omega)
      h1 h2 with ⟨a', f1, f2, f3, f4, f5⟩ | ⟨f1, f2⟩
    swap
    · right
      have f1' : walkFace cross edge s.1 s.2 starts.length edge.length s.1 s.2 0 a = .error .die := f1
      rw [f1', error_bind]
      exact ⟨rfl, Or.inl ⟨s, hs, f2⟩⟩
    have f1' : walkFace cross edge s.1 s.2 starts.length edge.length s.1 s.2 0 a =
      .ok (a', per (nd cross edge) s) := f1
    rw [f1', ok_bind]
    -- the entries now
    have hon : ∀ i, i < per (nd cross edge) s → look a' ((nd cross edge)^[i] s) = some (starts.length, i) :=
      fun i hi => f4 i (Nat.zero_le _) hi
    have hT' : Track (nd cross edge) (D edge) (starts ++ [s]) (fun d => if d ∈ D edge then look a' d else look a d) := by
      apply hT.step hI hs hls
      · intro i hi
        rw [if_pos (hI.iterate_mem hs i)]
        exact hon i hi
      · intro d hd
        split
        · rename_i hdD
          rw [hI.mem_cyc hs] at hd
          exact f5 d (mem_D.mp hdD).2 (fun i _ _ e => hd ⟨i, e⟩)
        · rfl
    have hT'' : Track (nd cross edge) (D edge) (starts ++ [s]) (look a') := by
      refine ⟨hT'.mem, hT'.sep, ?_, ?_⟩
      · intro c hc i hi
        have := hT'.on c hc i hi
        rwa [if_pos (hI.iterate_mem (hT'.mem _ (List.getElem_mem hc)) i)] at this
      · intro d hd hx
        have := hT'.off d hd hx
        rwa [if_pos hd] at this
    have hold : ∀ d ∈ D edge, look a d ≠ none → look a' d ≠ none := by
      intro d hd hn
      by_cases hc : d ∈ cyc (nd cross edge) s
      · obtain ⟨i, hi, rfl⟩ := List.mem_map.mp hc
        rw [hon i (List.mem_range.mp hi)]
        simp
      · rw [hI.mem_cyc hs] at hc
        rw [f5 d (mem_D.mp hd).2 (fun i _ _ e => hc ⟨i, e⟩)]
        exact hn
    have hself : look a' s ≠ none := by
      have := hon 0 hpp
      rw [Function.iterate_zero, id_eq] at this
      rw [this]
      simp
    have rank_inj : ∀ d ∈ D edge, rank edge.length d = rank edge.length s → d = s := by
      rintro ⟨e, o⟩ hd he
      have h3 := mem_D.mp hd
      obtain ⟨e', o'⟩ := s
      simp only at h3 hm
      rcases h3.2 with rfl | rfl <;> rcases hm.2 with rfl | rfl <;> simp [rank] at he ⊢ <;> omega
    rcases nextUnassigned_spec f2 f3 hm (by
      intro d hd1 hd2 hr'
      have hd := mem_D.mpr ⟨hd1, hd2⟩
      rcases Nat.lt_or_eq_of_le hr' with hlt | heq
      · exact hold d hd (hrank d hd hlt)
      · rw [rank_inj d hd heq]; exact hself) with ⟨u1, u2⟩ | ⟨t, u1, u2, u3, u4, u5⟩
    · left
      refine ⟨starts ++ [s], a', ?_, f2, f3, hT'', by simp; omega, ?_⟩
      · simp only
        rw [u1, ok_bind]
        simp
      · intro d hd
        exact u2 d (mem_D.mp hd).1 (mem_D.mp hd).2
    · simp only
      rw [u1, ok_bind]
      have := ih t (starts ++ [s]) a' (by simp; omega) f2 f3 hT'' (mem_D.mpr ⟨u2, u3⟩) u4
        (fun d hd hlt => u5 d (mem_D.mp hd).1 (mem_D.mp hd).2 hlt)
      simpa using this

end

/-! ### Filling the records -/

/-- A sequence of writes. -/
def puts : List (Asg × Dart) → List (List Dart) → Res (List (List Dart))
  | [], bufs => .ok bufs
  | x :: l, bufs => do
    let bufs ← put bufs x.1 x.2
    puts l bufs

/-- The writes of `fillFaces` in order. -/
def writes : List Asg → List Asg → Nat → List (Asg × Dart)
  | p :: ps, n :: ns, e => (p, (e, .pos)) :: (n, (e, .neg)) :: writes ps ns (e + 1)
  | _, _, _ => []

theorem fillFaces_eq : ∀ (ps ns : List Asg) (e : Nat) (bufs : List (List Dart)),
    fillFaces ps ns e bufs = puts (writes ps ns e) bufs
  | [], _, _, _ => rfl
  | _ :: _, [], _, _ => rfl
  | p :: ps, n :: ns, e, bufs => by
    unfold fillFaces writes
    simp only [puts]
    cases put bufs p (e, .pos) with
    | error x => rfl
    | ok b =>
      simp only [ok_bind]
      cases put b n (e, .neg) with
      | error x => rfl
      | ok b => exact fillFaces_eq ps ns (e + 1) b

theorem mem_writes : ∀ (ps ns : List Asg) (e : Nat), ps.length = ns.length → ∀ (a : Asg) (d : Dart),
    (a, d) ∈ writes ps ns e ↔ ∃ k, d.1 = e + k ∧ ((d.2 = .pos ∧ ps[k]? = some a) ∨
      (d.2 = .neg ∧ ns[k]? = some a))
  | [], [], _, _, a, d => by simp [writes]
  | p :: ps, n :: ns, e, h, a, d => by
    unfold writes
    rw [List.mem_cons, List.mem_cons, mem_writes ps ns (e + 1) (by simpa using h)]
    obtain ⟨x, o⟩ := d
    constructor
    · rintro (h1 | h1 | ⟨k, h1, h2⟩)
      · simp only [Prod.mk.injEq] at h1
        obtain ⟨rfl, rfl, rfl⟩ := h1
        exact ⟨0, rfl, Or.inl ⟨rfl, by simp⟩⟩
      · simp only [Prod.mk.injEq] at h1
        obtain ⟨rfl, rfl, rfl⟩ := h1
        exact ⟨0, rfl, Or.inr ⟨rfl, by simp⟩⟩
      · refine ⟨k + 1, by simp only at h1 ⊢; omega, ?_⟩
        simpa using h2
    · rintro ⟨k, h1, h2⟩
      cases k with
      | zero =>
        simp only [Nat.add_zero] at h1
        subst h1
        rcases h2 with ⟨h2, h3⟩ | ⟨h2, h3⟩
        · simp only [List.getElem?_cons_zero, Option.some.injEq] at h2 h3
          subst h2; subst h3
          exact Or.inl rfl
        · simp only [List.getElem?_cons_zero, Option.some.injEq] at h2 h3
          subst h2; subst h3
          exact Or.inr (Or.inl rfl)
      | succ k =>
        refine Or.inr (Or.inr ⟨k, by simp only at h1 ⊢; omega, ?_⟩)
        simpa using h2

/-- An entry of the buffers. -/
def dentry (bufs : List (List Dart)) (c p : Nat) : Option Dart := bufs[c]?.bind (fun b => b[p]?)

theorem puts_spec : ∀ (l : List (Asg × Dart)) (bufs : List (List Dart)),
    (∀ x ∈ l, ∃ c p b, x.1 = some (c, p) ∧ bufs[c]? = some b ∧ p < b.length) →
    ∃ bufs', puts l bufs = .ok bufs' ∧ bufs'.map List.length = bufs.map List.length ∧
      (∀ (c p : Nat) (d : Dart), (some (c, p), d) ∈ l → (∀ d', (some (c, p), d') ∈ l → d' = d) →
        dentry bufs' c p = some d) ∧
      (∀ (c p : Nat), (∀ d, (some (c, p), d) ∉ l) → dentry bufs' c p = dentry bufs c p)
  | [], bufs, _ => ⟨bufs, rfl, rfl, by simp, fun _ _ _ => rfl⟩
  | (a, d) :: l, bufs, h => by
    obtain ⟨c, p, b, ha, hb, hp⟩ := h (a, d) (by simp)
    simp only at ha
    subst ha
    have hcl := (List.getElem?_eq_some_iff.mp hb).1
    have hlen : (bufs.set c (b.set p d)).map List.length = bufs.map List.length := by
      rw [List.map_set, List.length_set]
      have : (bufs.map List.length)[c]'(by simpa using hcl) = b.length := by
        rw [List.getElem_map]; congr 1; exact (List.getElem?_eq_some_iff.mp hb).2
      rw [← this]
      exact List.set_getElem_self _
    obtain ⟨bufs', h1, h2, h3, h4⟩ := puts_spec l (bufs.set c (b.set p d)) (by
      intro x hx
      obtain ⟨c', p', b', e, hb', hp'⟩ := h x (by simp [hx])
      by_cases hcc : c' = c
      · subst hcc
        rw [hb] at hb'
        cases hb'
        exact ⟨c', p', b.set p d, e, by simp [hcl], by simpa using hp'⟩
      · exact ⟨c', p', b', e, by rw [List.getElem?_set_ne (Ne.symm hcc)]; exact hb', hp'⟩)
    have hentry : ∀ c' p', dentry (bufs.set c (b.set p d)) c' p' =
        if c' = c ∧ p' = p then some d else dentry bufs c' p' := by
      intro c' p'
      unfold dentry
      by_cases hcc : c' = c
      · subst hcc
        rw [List.getElem?_set_self hcl, hb]
        simp only [Option.bind_some, true_and]
        split
        · rename_i hpp; subst hpp; simp [hp]
        · rename_i hpp; rw [List.getElem?_set_ne (Ne.symm hpp)]
      · rw [List.getElem?_set_ne (Ne.symm hcc), if_neg (by simp [hcc])]
    refine ⟨bufs', ?_, by rw [h2, hlen], ?_, ?_⟩
    · unfold puts put
      simp only
      rw [assertC_ok (by simpa using hcl), ok_bind, rd_ok hb, ok_bind, assertC_ok (by simpa using hp),
        ok_bind, wr_lt hp, ok_bind, wr_lt hcl, ok_bind, h1]
    · intro c' p' d' hm huniq
      by_cases hmem : (some (c', p'), d') ∈ l
      · exact h3 c' p' d' hmem (fun d'' h'' => huniq d'' (List.mem_cons_of_mem _ h''))
      · have hno : ∀ d'', (some (c', p'), d'') ∉ l := by
          intro d'' h''
          rw [huniq d'' (List.mem_cons_of_mem _ h'')] at h''
          exact hmem h''
        rw [h4 c' p' hno, hentry]
        rw [List.mem_cons] at hm
        rcases hm with hm | hm
        · simp only [Prod.mk.injEq, Option.some.injEq] at hm
          rw [if_pos hm.1, hm.2]
        · exact absurd hm hmem
    · intro c' p' hno
      rw [h4 c' p' (fun d' h' => hno d' (List.mem_cons_of_mem _ h')), hentry, if_neg]
      rintro ⟨rfl, rfl⟩
      exact hno d (by simp)

section

variable {cross : List Cross} {edge : List Edge} (hC : Consistent cross edge)

include hC

theorem fillFaces_ok {starts : List Dart} {a : FAsg} (h1 : a.pos.length = edge.length)
    (h2 : a.neg.length = edge.length) (hT : Track (nd cross edge) (D edge) starts (look a))
    (hall : ∀ d ∈ D edge, look a d ≠ none) :
    fillFaces a.pos a.neg 0 ((starts.map (per (nd cross edge))).map (fun k => List.replicate k (0, .neg))) =
      .ok (starts.map (cyc (nd cross edge))) := by
  have hI := injOn_nd hC
  have hw : ∀ x d, (x, d) ∈ writes a.pos a.neg 0 ↔ d ∈ D edge ∧ look a d = x := by
    intro x d
    rw [mem_writes _ _ _ (by omega)]
    constructor
    · rintro ⟨k, e, h | h⟩
      · have := (List.getElem?_eq_some_iff.mp h.2).1
        refine ⟨mem_D.mpr ⟨by omega, Or.inl h.1⟩, ?_⟩
        unfold look
        rw [if_pos h.1, e, Nat.zero_add, h.2]
        rfl
      · have := (List.getElem?_eq_some_iff.mp h.2).1
        refine ⟨mem_D.mpr ⟨by omega, Or.inr h.1⟩, ?_⟩
        unfold look
        rw [if_neg (by rw [h.1]; simp), e, Nat.zero_add, h.2]
        rfl
    · rintro ⟨hd, rfl⟩
      obtain ⟨g1, g2⟩ := mem_D.mp hd
      refine ⟨d.1, by omega, ?_⟩
      unfold look
      rcases g2 with g2 | g2
      · left
        refine ⟨g2, ?_⟩
        rw [if_pos g2, List.getElem?_eq_getElem (by omega)]
        rfl
      · right
        refine ⟨g2, ?_⟩
        rw [if_neg (by rw [g2]; simp), List.getElem?_eq_getElem (by omega)]
        rfl
  rw [fillFaces_eq]
  obtain ⟨bufs', f1, f2, f3, _⟩ := puts_spec (writes a.pos a.neg 0)
    ((starts.map (per (nd cross edge))).map (fun k => List.replicate k (0, .neg))) (by
      rintro ⟨x, d⟩ hx
      obtain ⟨hd, hl⟩ := (hw x d).mp hx
      match hq : look a d with
      | none => exact absurd hq (hall d hd)
      | some (c, p) =>
        obtain ⟨hc, hp, _⟩ := hT.back hd hq
        exact ⟨c, p, List.replicate (per (nd cross edge) starts[c]) (0, .neg),
          by simp only; rw [← hl, hq], by simp [hc], by simpa using hp⟩)
  rw [f1]
  congr 1
  apply List.ext_getElem?
  intro c
  have hlen : bufs'.length = starts.length := by
    have := congrArg List.length f2; simpa using this
  by_cases hc : c < starts.length
  · have hc' : c < bufs'.length := by omega
    rw [List.getElem?_eq_getElem hc', List.getElem?_map, List.getElem?_eq_getElem hc, Option.map_some]
    congr 1
    have hbl : bufs'[c].length = per (nd cross edge) starts[c] := by
      have := congrArg (fun l => l[c]?) f2
      simpa [hc, hc'] using this
    apply List.ext_getElem?
    intro p
    by_cases hp : p < per (nd cross edge) starts[c]
    · have hon := hT.on c hc p hp
      have hmem := hI.iterate_mem (hT.mem _ (List.getElem_mem hc)) p
      have := f3 c p ((nd cross edge)^[p] starts[c]) ((hw _ _).mpr ⟨hmem, hon⟩) (by
        intro d' hd'
        obtain ⟨g1, g2⟩ := (hw _ _).mp hd'
        obtain ⟨_, _, e⟩ := hT.back g1 g2
        exact e.symm)
      unfold dentry at this
      rw [List.getElem?_eq_getElem hc', Option.bind_some] at this
      rw [this, cyc_getElem? hp]
    · rw [List.getElem?_eq_none (by omega), List.getElem?_eq_none (by rw [cyc_length]; omega)]
  · rw [List.getElem?_eq_none (by omega), List.getElem?_eq_none (by simp; omega)]

end

/-! ### Canonical order and sorting -/

theorem readFrom_eq {α : Type} (d : α) (l : List α) (low : Nat) : readFrom d l low = l.rotate low := by
  apply List.ext_getElem?
  intro i
  unfold readFrom
  by_cases hi : i < l.length
  · have hm : (low + i) % l.length < l.length := Nat.mod_lt _ (by omega)
    rw [List.getElem?_map, List.getElem?_range hi, Option.map_some, List.getElem?_rotate hi,
      Nat.add_comm i low, List.getElem?_eq_getElem hm, List.getD_eq_getElem?_getD,
      List.getElem?_eq_getElem hm]
    rfl
  · rw [List.getElem?_eq_none (by simp; omega), List.getElem?_eq_none (by simp; omega)]

theorem lowPos_spec : ∀ (l full : List Nat) (i : Nat) (s : Nat × Nat),
    full[s.2]? = some s.1 → (∀ (k x : Nat), k < i → full[k]? = some x → s.1 ≤ x) →
    full.drop i = l → ∃ x, full[lowPos l i s]? = some x ∧ ∀ y ∈ full, x ≤ y
  | [], full, i, s, h1, h2, h3 => by
    refine ⟨s.1, h1, ?_⟩
    intro y hy
    obtain ⟨k, hk, rfl⟩ := List.getElem_of_mem hy
    have := List.drop_eq_nil_iff.mp h3
    exact h2 k _ (by omega) (List.getElem?_eq_getElem hk)
  | e :: l, full, i, s, h1, h2, h3 => by
    have hi : full[i]? = some e := by
      have := congrArg (fun q => q[0]?) h3
      simpa using this
    unfold lowPos
    apply lowPos_spec l full (i + 1)
    · split
      · exact hi
      · exact h1
    · intro k x hk hx
      by_cases hki : k = i
      · subst hki
        rw [hi] at hx
        cases hx
        split <;> omega
      · have := h2 k x (by omega) hx
        split <;> omega
    · have := congrArg (List.drop 1) h3
      simpa [Nat.add_comm] using this

/-- A face buffer rotated to begin with its lowest edge. -/
def rotb (b : List Dart) : List Dart :=
  b.rotate (lowPos (b.map Prod.fst) 0 ((b.map Prod.fst).headD 0, 0))

theorem rotb_spec {b : List Dart} (hb : b ≠ []) :
    ∃ d, (rotb b)[0]? = some d ∧ ∀ y ∈ b, d.1 ≤ y.1 := by
  obtain ⟨x, l, rfl⟩ := List.exists_cons_of_ne_nil hb
  obtain ⟨v, h1, h2⟩ := lowPos_spec ((x :: l).map Prod.fst) ((x :: l).map Prod.fst) 0
    (((x :: l).map Prod.fst).headD 0, 0) (by simp) (by intro k; omega) (by simp)
  obtain ⟨d, hd, rfl⟩ := by rw [List.getElem?_map, Option.map_eq_some_iff] at h1; exact h1
  refine ⟨d, ?_, ?_⟩
  · unfold rotb
    have hlt := (List.getElem?_eq_some_iff.mp hd).1
    rw [List.getElem?_rotate (by simp), Nat.zero_add, Nat.mod_eq_of_lt hlt]
    exact hd
  · intro y hy
    exact h2 y.1 (List.mem_map_of_mem hy)

theorem canon_ok {b : List Dart} (hb : b ≠ []) :
    canonorderFace ⟨b.map Prod.fst, b.map Prod.snd⟩ .pos =
      .ok ⟨(rotb b).map Prod.fst, (rotb b).map Prod.snd⟩ := by
  unfold canonorderFace
  obtain ⟨x, l, rfl⟩ := List.exists_cons_of_ne_nil hb
  simp only
  rw [rd_ok (show ((x :: l).map Prod.fst)[0]? = some x.1 by simp), ok_bind, readFrom_eq, readFrom_eq]
  unfold rotb
  rw [List.map_rotate, List.map_rotate]
  rfl

theorem canonAll_ok : ∀ (bufs : List (List Dart)), (∀ b ∈ bufs, b ≠ []) →
    canonAll (bufs.map (fun b => (⟨b.map Prod.fst, b.map Prod.snd⟩ : Face))) =
      .ok (bufs.map (fun b => ⟨(rotb b).map Prod.fst, (rotb b).map Prod.snd⟩))
  | [], _ => rfl
  | b :: l, h => by
    simp only [List.map_cons]
    unfold canonAll
    rw [canon_ok (h b (by simp)), ok_bind, canonAll_ok l (fun b hb => h b (by simp [hb])), ok_bind]

theorem sort_faces (qs : QSort) {fs : List Face} (hb : ∀ f ∈ fs, Small f.edge ∧ f.edge.length < 2 ^ 31) :
    (qs.sort faceLe fs).Pairwise (fun a b => b.edge.length ≤ a.edge.length) := by
  have hperm := qs.perm faceLe fs
  have ho := order_of_key (P := fun f : Face => Small f.edge ∧ f.edge.length < 2 ^ 31)
    (same := fun a b => (2 ^ 31 - a.edge.length) :: a.edge = (2 ^ 31 - b.edge.length) :: b.edge)
    (cmp := faceCmp) (fun f => (2 ^ 31 - f.edge.length) :: f.edge)
    (fun a b ha hb => longLex_spec _ _ ha.1 hb.1 ha.2 hb.2) (by intros; rfl)
  have hsorted := qs.sorted faceLe fs
    (by
      intro a b ha hb'
      have := ho.swap a b (hb a ha) (hb b hb')
      simp only [faceLe, Bool.or_eq_true, decide_eq_true_eq]
      omega)
    (by
      intro a b c ha hb' hc h1 h2
      simp only [faceLe, decide_eq_true_eq] at *
      exact ho.trans a b c (hb a ha) (hb b hb') (hb c hc) h1 h2)
  refine List.Pairwise.imp_of_mem ?_ hsorted
  intro a b ha hb' h
  have pa := hb a (hperm.mem_iff.mp ha)
  have pb := hb b (hperm.mem_iff.mp hb')
  simp only [faceLe, decide_eq_true_eq] at h
  unfold faceCmp longLex at h
  split at h
  · rw [udiff_eq pb.2 pa.2] at h; omega
  · omega

/-- Separated points are no more than points whose cycles cover everything. -/
theorem sep_le {α : Type} [DecidableEq α] {f : α → α} {S : Finset α} (hI : InjOn f S) {A B : List α}
    (hA : ∀ x ∈ A, x ∈ S) (hB : ∀ x ∈ B, x ∈ S) (hsep : A.Pairwise (fun x y => y ∉ cyc f x))
    (hcov : ∀ x ∈ S, ∃ b ∈ B, x ∈ cyc f b) : A.length ≤ B.length := by
  have : ∀ x, ∃ b, x ∈ A → b ∈ B ∧ x ∈ cyc f b := by
    intro x
    by_cases hx : x ∈ A
    · obtain ⟨b, h1, h2⟩ := hcov x (hA x hx)
      exact ⟨b, fun _ => ⟨h1, h2⟩⟩
    · exact ⟨x, fun h => absurd h hx⟩
  choose g hg using this
  have hn : (A.map g).Nodup := by
    unfold List.Nodup
    rw [List.pairwise_map]
    refine List.Pairwise.imp_of_mem ?_ hsep
    intro x y hx hy hxy e
    obtain ⟨b1, b2⟩ := hg x hx
    obtain ⟨c1, c2⟩ := hg y hy
    rw [← e] at c2
    have hb := hB _ b1
    have hxS := hA x hx
    apply hxy
    rw [hI.mem_cyc hxS]
    rw [hI.mem_cyc hb] at b2 c2
    exact reach_trans (hI.reach_symm hb b2) c2
  have hsub : A.map g ⊆ B := by
    intro b hb
    obtain ⟨x, hx, rfl⟩ := List.mem_map.mp hb
    exact (hg x hx).1
  have := (hn.subperm hsub).length_le
  simpa using this

/-- What `pd_regenerate_faces` does. -/
theorem regenFaces_cases (qs : QSort) {maxfaces : Nat} {cross : List Cross} {edge : List Edge}
    (hC : Consistent cross edge) (h0 : cross ≠ []) (hsmall : 2 * edge.length < 2 ^ 31) :
    (∃ starts : List Dart, (∀ d ∈ starts, d ∈ D edge) ∧
      starts.Pairwise (fun x y => y ∉ cyc (nd cross edge) x) ∧
      (∀ d ∈ D edge, ∃ s ∈ starts, d ∈ cyc (nd cross edge) s) ∧
      ((starts.length = cross.length + 2 ∧ ∃ faces, regenFaces qs maxfaces cross edge = .ok faces ∧
          faces.Perm (starts.map (fun s => (⟨(rotb (cyc (nd cross edge) s)).map Prod.fst,
            (rotb (cyc (nd cross edge) s)).map Prod.snd⟩ : Face))) ∧
          faces.Pairwise (fun a b => b.edge.length ≤ a.edge.length)) ∨
       (starts.length ≠ cross.length + 2 ∧ regenFaces qs maxfaces cross edge = .error .die))) ∨
    (regenFaces qs maxfaces cross edge = .error .die ∧
      ((∃ d ∈ D edge, edge.length < per (nd cross edge) d) ∨
       ∃ starts' : List Dart, (∀ d ∈ starts', d ∈ D edge) ∧
         starts'.Pairwise (fun x y => y ∉ cyc (nd cross edge) x) ∧ maxfaces < starts'.length)) := by
  have hI := injOn_nd hC
  have hcl : 0 < cross.length := List.length_pos_iff.mpr h0
  have hel : 1 < edge.length := by have := hC.count; omega
  have hs : (((0 : Nat), Or.pos) : Dart) ∈ D edge := mem_D.mpr ⟨by simp only; omega, Or.inl rfl⟩
  have hunf : ∀ a lens, facesLoop cross edge maxfaces 0 0 .pos
      ⟨List.replicate edge.length none, List.replicate edge.length none⟩ [] = .ok (a, lens) →
      regenFaces qs maxfaces cross edge = (do
        let bufs ← fillFaces a.pos a.neg 0 (lens.map (fun k => List.replicate k (0, .neg)))
        let faces ← canonAll (bufs.map (fun b => (⟨b.map Prod.fst, b.map Prod.snd⟩ : Face)))
        let faces := qs.sort faceLe faces
        if faces.length ≠ cross.length + 2 then .error .die else .ok faces) := by
    intro a lens h
    unfold regenFaces
    rw [assertC_ok (by simpa using hcl), ok_bind, assertC_ok (by simpa using hel), ok_bind, h, ok_bind]
  have hunf' : facesLoop cross edge maxfaces 0 0 .pos
      ⟨List.replicate edge.length none, List.replicate edge.length none⟩ [] = .error .die →
      regenFaces qs maxfaces cross edge = .error .die := by
    intro h
    unfold regenFaces
    rw [assertC_ok (by simpa using hcl), ok_bind, assertC_ok (by simpa using hel), ok_bind, h, error_bind]
  have hnone : ∀ d : Dart, d ∈ D edge → look ⟨List.replicate edge.length none, List.replicate edge.length none⟩ d = none := by
    intro d hd
    have := (mem_D.mp hd).1
    unfold look
    split <;> simp [this]
  rcases facesLoop_spec hC (maxfaces := maxfaces) maxfaces (0, .pos) []
    ⟨List.replicate edge.length none, List.replicate edge.length none⟩ (by simp) (by simp) (by simp)
    ⟨by simp, by simp, by simp, fun d hd _ => hnone d hd⟩ hs (hnone _ hs)
    (by intro d hd h; simp [rank] at h) with
    ⟨starts, a, f1, f2, f3, hT, f5, hall⟩ | ⟨f1, f2⟩
  swap
  · exact Or.inr ⟨hunf' f1, f2⟩
  left
  have hcov : ∀ d ∈ D edge, ∃ s ∈ starts, d ∈ cyc (nd cross edge) s := fun d hd => hT.covers hd (hall d hd)
  refine ⟨starts, hT.mem, hT.sep, hcov, ?_⟩
  have hne : ∀ b ∈ starts.map (cyc (nd cross edge)), b ≠ [] := by
    intro b hb
    obtain ⟨s, hs, rfl⟩ := List.mem_map.mp hb
    have := hI.per_pos (hT.mem s hs)
    intro e
    have := congrArg List.length e
    rw [cyc_length] at this
    simp at this
    omega
  have hreg := hunf a _ f1
  rw [fillFaces_ok hC f2 f3 hT hall, ok_bind, canonAll_ok _ hne, ok_bind, List.map_map] at hreg
  simp only at hreg
  have hperm := qs.perm faceLe (starts.map ((fun b => (⟨(rotb b).map Prod.fst, (rotb b).map Prod.snd⟩ : Face)) ∘
    cyc (nd cross edge)))
  have hlen := hperm.length_eq
  rw [List.length_map] at hlen
  rw [hlen] at hreg
  by_cases hn : starts.length = cross.length + 2
  · left
    rw [if_neg (by simpa using hn)] at hreg
    refine ⟨hn, _, hreg, hperm, sort_faces qs ?_⟩
    intro f hf
    obtain ⟨s, hs, rfl⟩ := List.mem_map.mp hf
    have hsD := hT.mem s hs
    have hper := hI.per_le hsD
    have hcard : (D edge).card = 2 * edge.length := by
      unfold D
      rw [Finset.card_product, Finset.card_range]
      rw [show ({Or.pos, Or.neg} : Finset Or).card = 2 from rfl]
      omega
    refine ⟨?_, ?_⟩
    · intro x hx
      simp only [Function.comp_apply] at hx
      obtain ⟨d, hd, rfl⟩ := List.mem_map.mp hx
      unfold rotb at hd
      rw [List.mem_rotate] at hd
      have := (mem_D.mp (hI.cyc_subset hsD hd)).1
      omega
    · simp only [Function.comp_apply, List.length_map, rotb, List.length_rotate, cyc_length]
      omega
  · right
    rw [if_pos (by simpa using hn)] at hreg
    exact ⟨hn, hreg⟩

end Plc.Faces
