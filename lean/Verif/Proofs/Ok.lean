import Verif.Model.Ok
import Verif.Spec.Ok
import Verif.Proofs.CoreOk
import Mathlib.Data.List.Nodup

/-! What the sanity checks accept. -/

namespace Plc.Ok

open Plc.Cmp Plc.Core Plc.Edges

theorem ite_ok {p : Prop} [Decidable p] {x : Res Bool} : (if p then x else .ok false) = .ok true ↔ p ∧ x = .ok true := by
  split <;> simp_all

theorem bind_ite_ok {x y : Res Bool} :
    (x >>= fun b => if b = true then y else .ok false) = .ok true ↔ x = .ok true ∧ y = .ok true := by
  rw [bind_ok_iff]
  constructor
  · rintro ⟨b, h1, h2⟩
    cases b
    · simp at h2
    · exact ⟨h1, h2⟩
  · rintro ⟨h1, h2⟩
    exact ⟨true, h1, h2⟩

theorem stepOk_iff {edge : List Edge} {k : List Nat} {i x : Nat} : stepOk edge k i x = .ok true ↔
    ∃ n, k[(i + 1) % k.length]? = some n ∧ HeadToTail edge x n := by
  unfold stepOk HeadToTail
  simp only [bind_ok_iff, rd_eq_ok]
  constructor
  · rintro ⟨n, h1, re, h2, rn, h3, h4⟩
    split at h4
    · cases h4
    · rename_i h
      rw [not_or, not_not, not_not] at h
      exact ⟨n, h1, re, rn, h2, h3, h.1.symm, by omega⟩
  · rintro ⟨n, h1, re, rn, h2, h3, h4, h5⟩
    refine ⟨n, h1, re, h2, rn, h3, ?_⟩
    rw [if_neg (by rw [not_or, not_not, not_not]; exact ⟨h4.symm, by omega⟩)]

theorem walkOk_iff {edge : List Edge} {k : List Nat} : ∀ {l : List Nat} {i c c' : Nat},
    walkOk edge k l i c = .ok (some c') ↔ c' = c + l.length ∧ l = List.range' c l.length ∧
      ∀ (j x : Nat), l[j]? = some x → stepOk edge k (i + j) x = .ok true
  | [], i, c, c' => by
    simp only [walkOk, Except.ok.injEq, Option.some.injEq]
    simp [eq_comm]
  | x :: l, i, c, c' => by
    rw [walkOk]
    by_cases hc : c = x
    · subst hc
      rw [if_neg (by simp), bind_ok_iff]
      constructor
      · rintro ⟨b, h1, h2⟩
        cases b
        · simp at h2
        · rw [if_pos rfl, walkOk_iff] at h2
          obtain ⟨h3, h4, h5⟩ := h2
          refine ⟨by rw [h3, List.length_cons]; omega, by rw [List.length_cons, List.range'_succ, ← h4], ?_⟩
          intro j x hx
          cases j with
          | zero =>
            rw [List.getElem?_cons_zero, Option.some.injEq] at hx
            rw [← hx]; exact h1
          | succ j =>
            have := h5 j x (by simpa using hx)
            rw [show i + (j + 1) = i + 1 + j by omega]
            exact this
      · rintro ⟨h3, h4, h5⟩
        refine ⟨true, h5 0 c (by simp), ?_⟩
        rw [if_pos rfl, walkOk_iff]
        rw [List.length_cons, List.range'_succ] at h4
        refine ⟨by rw [h3, List.length_cons]; omega, (List.cons.inj h4).2, ?_⟩
        intro j x hx
        have := h5 (j + 1) x (by simpa using hx)
        rw [show i + 1 + j = i + (j + 1) by omega]
        exact this
    · rw [if_pos hc]
      simp only [Except.ok.injEq, reduceCtorEq, false_iff]
      rintro ⟨_, h, _⟩
      rw [List.length_cons, List.range'_succ] at h
      exact hc (List.cons.inj h).1.symm

theorem compsWalk_iff {edge : List Edge} : ∀ {comps : List Comp} {c c' : Nat},
    compsWalk edge comps c = .ok (some c') ↔ c' = c + (comps.flatMap (·.edge)).length ∧
      comps.flatMap (·.edge) = List.range' c (comps.flatMap (·.edge)).length ∧
      ∀ k ∈ comps, ∀ (j x : Nat), k.edge[j]? = some x → stepOk edge k.edge j x = .ok true
  | [], c, c' => by
    simp only [compsWalk, Except.ok.injEq, Option.some.injEq]
    simp [eq_comm]
  | k :: l, c, c' => by
    rw [compsWalk, bind_ok_iff]
    constructor
    · rintro ⟨b, h1, h2⟩
      cases b with
      | none => simp at h2
      | some d =>
        rw [walkOk_iff] at h1
        simp only at h2
        rw [compsWalk_iff] at h2
        obtain ⟨a1, a2, a3⟩ := h1
        obtain ⟨b1, b2, b3⟩ := h2
        subst a1
        refine ⟨by rw [b1, List.flatMap_cons, List.length_append]; omega, ?_, ?_⟩
        · rw [List.flatMap_cons, List.length_append, ← List.range'_append_1, ← a2, ← b2]
        · intro k' hk'
          rcases List.mem_cons.mp hk' with rfl | hk'
          · intro j x hx
            have := a3 j x hx
            rwa [Nat.zero_add] at this
          · exact b3 k' hk'
    · rintro ⟨h1, h2, h3⟩
      rw [List.flatMap_cons, List.length_append, ← List.range'_append_1] at h2
      obtain ⟨e1, e2⟩ := List.append_inj h2 (by simp)
      refine ⟨some (c + k.edge.length), walkOk_iff.mpr ⟨rfl, e1, fun j x hx => by
        rw [Nat.zero_add]; exact h3 k (by simp) j x hx⟩, ?_⟩
      simp only
      rw [compsWalk_iff]
      refine ⟨by rw [h1, List.flatMap_cons, List.length_append]; omega, e2, fun k' hk' => h3 k' (by simp [hk'])⟩

theorem tagsOk_iff : ∀ {l : List Nat}, l.Pairwise (· ≤ ·) →
    (tagsOk l = true ↔ l.Nodup ∧ ∀ a ∈ l, a < 65 → ∀ b ∈ l, a ≤ b)
  | [], _ => by simp [tagsOk]
  | [a], _ => by simp [tagsOk]
  | a :: b :: l, h => by
    rw [List.pairwise_cons] at h
    have hb := List.pairwise_cons.mp h.2
    have ha := h.1
    rw [tagsOk]
    simp only [Bool.and_eq_true, Bool.not_eq_true', decide_eq_false_iff_not]
    rw [tagsOk_iff h.2, List.nodup_cons (a := a)]
    constructor
    · rintro ⟨⟨h1, h2⟩, h3, h4⟩
      have hlt : ∀ x ∈ b :: l, a < x := by
        intro x hx
        have e1 := ha b (by simp)
        rcases List.mem_cons.mp hx with rfl | hx
        · omega
        · have := hb.1 x hx; omega
      refine ⟨⟨fun hm => absurd (hlt a hm) (by omega), h3⟩, ?_⟩
      intro x hx hx65 y hy
      rcases List.mem_cons.mp hx with rfl | hx
      · rcases List.mem_cons.mp hy with rfl | hy
        · omega
        · have := hlt y hy; omega
      · exfalso
        rcases List.mem_cons.mp hx with rfl | hx
        · omega
        · have := hb.1 x hx; omega
    · rintro ⟨⟨h1, h2⟩, h3⟩
      refine ⟨⟨fun e => h1 (by simp [e]), ?_⟩, h2, fun x hx h65 y hy => h3 x (by simp [hx]) h65 y (by simp [hy])⟩
      intro hlt
      have := h3 b (by simp) hlt a (by simp)
      have := ha b (by simp)
      exact h1 (by simp [show a = b by omega])

theorem sort_tags (qs : QSort) (l : List Nat) : (qs.sort (fun a b => decide (a ≤ b)) l).Pairwise (· ≤ ·) := by
  have := qs.sorted (fun a b : Nat => decide (a ≤ b)) l (by
    intro a b _ _
    simp only [Bool.or_eq_true, decide_eq_true_eq]
    omega) (by
    intro a b c _ _ _ h1 h2
    simp only [decide_eq_true_eq] at *
    omega)
  exact this.imp (by simp)

theorem compsOk_iff {qs : QSort} {maxcomps : Nat} {cross : List Cross} {edge : List Edge} {comps : List Comp}
    (h0 : cross ≠ []) : compsOk qs maxcomps cross edge comps = .ok true ↔
      comps.length ≤ maxcomps ∧ CompRecords edge comps := by
  have hl : cross.length ≠ 0 := by simpa using h0
  have hp := qs.perm (fun a b : Nat => decide (a ≤ b)) (comps.map (·.tag))
  unfold compsOk
  by_cases hm : comps.length > maxcomps
  · rw [if_pos hm]
    simp; omega
  rw [if_neg hm, if_neg hl, bind_ok_iff]
  have key : tagsOk (qs.sort (fun a b => decide (a ≤ b)) (comps.map (·.tag))) = true ↔
      (comps.map (·.tag)).Nodup ∧ ∀ k ∈ comps, k.tag < 65 → ∀ k' ∈ comps, k.tag ≤ k'.tag := by
    rw [tagsOk_iff (sort_tags qs _), hp.nodup_iff]
    simp only [hp.mem_iff, List.mem_map, forall_exists_index, and_imp, forall_apply_eq_imp_iff₂]
  constructor
  · rintro ⟨b, h1, h2⟩
    cases b with
    | none => simp at h2
    | some c =>
      rw [compsWalk_iff] at h1
      simp only at h2
      split at h2
      · cases h2
      · rename_i hc
        rw [not_not] at hc
        rw [Except.ok.injEq, key] at h2
        obtain ⟨a1, a2, a3⟩ := h1
        refine ⟨by omega, ?_, ?_, h2.1, h2.2⟩
        · rw [a2, ← List.range_eq_range']
          congr 1
          omega
        · intro k hk j e he
          exact stepOk_iff.mp (a3 k hk j e he)
  · rintro ⟨h1, h2⟩
    have hlen := congrArg List.length h2.all
    rw [List.length_range] at hlen
    refine ⟨some edge.length, compsWalk_iff.mpr ⟨by omega, ?_, ?_⟩, ?_⟩
    · rw [hlen, h2.all, List.range_eq_range']
    · intro k hk j x hx
      exact stepOk_iff.mpr (h2.follow k hk j x hx)
    · simp only
      rw [if_neg (by simp), Except.ok.injEq, key]
      exact ⟨h2.tags, h2.letters⟩

/-! ### Faces -/

theorem orientedEdge_iff {r s : Edge} {o : Or} : orientedEdge r o = .ok s ↔
    (o = .pos ∧ s = r) ∨ (o = .neg ∧ s = ⟨r.tail, r.tailpos, r.head, r.headpos⟩) := by
  cases o <;> simp [orientedEdge, eq_comm]

theorem turnOk_iff {edge : List Edge} {f : Face} {i : Nat} (hpos : ∀ r ∈ edge, r.headpos < 4 ∧ r.tailpos < 4) :
    turnOk edge f i = .ok true ↔ ∃ e o n o', f.edge[i]? = some e ∧ f.orient[i]? = some o ∧
      f.edge[(i + 1) % f.edge.length]? = some n ∧ f.orient[(i + 1) % f.edge.length]? = some o' ∧
      Turns edge (e, o) (n, o') := by
  unfold turnOk Turns SideEnds SideBegins
  constructor
  · rw [bind_ok_iff]
    rintro ⟨e, h1, h2⟩
    rw [rd_eq_ok] at h1
    split at h2
    · cases h2
    rw [bind_ok_iff] at h2
    obtain ⟨n, h3, h4⟩ := h2
    rw [rd_eq_ok] at h3
    split at h4
    · cases h4
    simp only [bind_ok_iff, rd_eq_ok, Except.ok.injEq, Bool.and_eq_true, decide_eq_true_eq] at h4
    obtain ⟨re, r1, oe, r2, this, r3, rn, r4, on, r5, next, r6, r7, r8⟩ := h4
    refine ⟨e, oe, n, on, h1, r2, h3, r5, this.head, this.headpos, ⟨re, r1, ?_⟩, ⟨rn, r4, ?_⟩⟩
    · rw [orientedEdge_iff] at r3
      rcases r3 with ⟨rfl, rfl⟩ | ⟨rfl, rfl⟩
      · exact Or.inl ⟨rfl, rfl, rfl⟩
      · exact Or.inr ⟨rfl, rfl, rfl⟩
    · rw [orientedEdge_iff] at r6
      have := hpos rn (List.mem_of_getElem? r4)
      rcases r6 with ⟨rfl, rfl⟩ | ⟨rfl, rfl⟩
      · exact Or.inl ⟨rfl, r7.symm, by omega⟩
      · exact Or.inr ⟨rfl, r7.symm, by simp only at r8; omega⟩
  · rintro ⟨e, o, n, o', h1, h2, h3, h4, c, k, ⟨re, r1, s1⟩, ⟨rn, r4, s4⟩⟩
    have l1 := (List.getElem?_eq_some_iff.mp r1).1
    have l4 := (List.getElem?_eq_some_iff.mp r4).1
    simp only at l1 l4 r1 r4 s1 s4
    rw [rd_ok h1, ok_bind, if_neg (by omega), rd_ok h3, ok_bind, if_neg (by omega), rd_ok r1, ok_bind, rd_ok h2, ok_bind]
    have hre := hpos re (List.mem_of_getElem? r1)
    have hrn := hpos rn (List.mem_of_getElem? r4)
    rcases s1 with ⟨rfl, p1, p2⟩ | ⟨rfl, p1, p2⟩ <;> rcases s4 with ⟨rfl, q1, q2⟩ | ⟨rfl, q1, q2⟩ <;>
      simp only [orientedEdge, ok_bind, rd_ok r4, rd_ok h4, Except.ok.injEq, Bool.and_eq_true, decide_eq_true_eq] <;>
      omega

theorem faceWalk_iff {edge : List Edge} {f : Face} : ∀ {k i : Nat},
    faceWalk edge f k i = .ok true ↔ ∀ j, j < k → turnOk edge f (i + j) = .ok true
  | 0, i => by simp [faceWalk]
  | k + 1, i => by
    rw [faceWalk, bind_ite_ok, faceWalk_iff]
    constructor
    · rintro ⟨h1, h2⟩ j hj
      cases j with
      | zero => exact h1
      | succ j =>
        have := h2 j (by omega)
        rwa [show i + (j + 1) = i + 1 + j by omega]
    · intro h
      refine ⟨h 0 (by omega), fun j hj => ?_⟩
      have := h (j + 1) (by omega)
      rwa [show i + (j + 1) = i + 1 + j by omega] at this

theorem facesWalk_iff {edge : List Edge} : ∀ {faces : List Face},
    facesWalk edge faces = .ok true ↔ ∀ f ∈ faces, f.edge ≠ [] ∧ ∀ j, j < f.edge.length → turnOk edge f j = .ok true
  | [] => by simp [facesWalk]
  | f :: l => by
    rw [facesWalk]
    by_cases h : f.edge.length = 0
    · rw [if_pos h]
      simp only [reduceCtorEq, false_iff]
      intro hc
      exact (hc f (by simp)).1 (List.length_eq_zero_iff.mp h)
    · rw [if_neg h, bind_ite_ok, faceWalk_iff, facesWalk_iff, List.forall_mem_cons]
      simp only [Nat.zero_add]
      have : f.edge ≠ [] := fun e => h (by simp [e])
      tauto

theorem foldl_low : ∀ (l : List Nat) (e : Nat),
    (l.foldl (fun low x => if x < low then x else low) e ≤ e ∧
      (l.foldl (fun low x => if x < low then x else low) e = e ↔ ∀ x ∈ l, e ≤ x))
  | [], e => by simp
  | x :: l, e => by
    rw [List.foldl_cons]
    by_cases h : x < e
    · rw [if_pos h]
      have := foldl_low l x
      refine ⟨by omega, ?_⟩
      constructor
      · intro he; omega
      · intro hx
        have := hx x (by simp)
        omega
    · rw [if_neg h]
      have := foldl_low l e
      refine ⟨this.1, this.2.trans ?_⟩
      simp only [List.forall_mem_cons]
      constructor
      · intro q; exact ⟨by omega, q⟩
      · exact And.right

theorem lowFirst_iff : ∀ {faces : List Face}, lowFirst faces = .ok true ↔
    ∀ f ∈ faces, ∃ e, f.edge[0]? = some e ∧ ∀ x ∈ f.edge, e ≤ x
  | [] => by simp [lowFirst]
  | f :: l => by
    rw [lowFirst, bind_ok_iff, List.forall_mem_cons]
    constructor
    · rintro ⟨e, h1, h2⟩
      rw [rd_eq_ok] at h1
      split at h2
      · cases h2
      · rename_i h
        rw [not_not, (foldl_low _ _).2] at h
        refine ⟨⟨e, h1, ?_⟩, lowFirst_iff.mp h2⟩
        cases hf : f.edge with
        | nil => simp
        | cons a t =>
          rw [hf] at h1 h
          simp only [List.getElem?_cons_zero, Option.some.injEq] at h1
          simp only [List.drop_succ_cons, List.drop_zero] at h
          simp only [List.forall_mem_cons]
          exact ⟨by omega, h⟩
    · rintro ⟨⟨e, h1, h2⟩, h3⟩
      refine ⟨e, rd_ok h1, ?_⟩
      rw [if_neg]
      · exact lowFirst_iff.mpr h3
      · rw [not_not, (foldl_low _ _).2]
        intro x hx
        exact h2 x (List.mem_of_mem_drop hx)

theorem faceCmp_iff {f g : Face} (hf : Small f.edge ∧ f.edge.length < 2 ^ 31)
    (hg : Small g.edge ∧ g.edge.length < 2 ^ 31) : faceCmp f g ≤ 0 ↔ FaceBefore f g := by
  unfold faceCmp FaceBefore longLex
  by_cases h : f.edge.length = g.edge.length
  · rw [if_neg (by simp [h])]
    have h1 := lexU_spec _ _ h hf.1 hg.1
    have : lexU f.edge g.edge ≤ 0 ↔ f.edge ≤ g.edge := by
      rw [le_iff_lt_or_eq (a := f.edge), ← h1.1, ← h1.2]
      omega
    rw [this, not_lt]
    simp [h]
  · rw [if_pos h, udiff_eq hg.2 hf.2]
    simp only [h, false_and, or_false]
    omega

theorem FaceBefore.trans {f g k : Face} (h1 : FaceBefore f g) (h2 : FaceBefore g k) : FaceBefore f k := by
  unfold FaceBefore at *
  rcases h1 with h1 | ⟨h1, h1'⟩ <;> rcases h2 with h2 | ⟨h2, h2'⟩
  · left; omega
  · left; omega
  · left; omega
  · right
    rw [not_lt] at *
    exact ⟨by omega, h1'.trans h2'⟩

theorem facesSorted_iff : ∀ {l : List Face}, (∀ f ∈ l, Small f.edge ∧ f.edge.length < 2 ^ 31) →
    (facesSorted l = true ↔ l.Pairwise FaceBefore)
  | [], _ => by simp [facesSorted]
  | [a], _ => by simp [facesSorted]
  | a :: b :: l, h => by
    have ha := h a (by simp)
    have hb := h b (by simp)
    have ih := facesSorted_iff (l := b :: l) (fun f hf => h f (by simp [hf]))
    rw [facesSorted, List.pairwise_cons]
    have hab := faceCmp_iff ha hb
    by_cases hc : faceCmp a b > 0
    · rw [if_pos hc]
      simp only [Bool.false_eq_true, false_iff]
      rintro ⟨q, _⟩
      have := hab.mpr (q b (by simp))
      omega
    · rw [if_neg hc, ih]
      constructor
      · intro q
        refine ⟨?_, q⟩
        intro x hx
        rcases List.mem_cons.mp hx with rfl | hx
        · exact hab.mp (by omega)
        · exact FaceBefore.trans (hab.mp (by omega)) ((List.pairwise_cons.mp q).1 x hx)
      · exact And.right

theorem facesOk_iff {maxfaces : Nat} {cross : List Cross} {edge : List Edge} {faces : List Face}
    (h0 : cross ≠ []) (hpos : ∀ r ∈ edge, r.headpos < 4 ∧ r.tailpos < 4) (hsmall : edge.length ≤ 2 ^ 31)
    (hlen : ∀ f ∈ faces, f.edge.length < 2 ^ 31) :
    facesOk maxfaces cross edge faces = .ok true ↔ faces.length ≤ maxfaces ∧ FaceRecords edge faces := by
  have hl : cross.length ≠ 0 := by simpa using h0
  unfold facesOk
  by_cases hm : faces.length > maxfaces
  · rw [if_pos hm]
    simp; omega
  rw [if_neg hm, if_neg hl, bind_ite_ok, bind_ite_ok, facesWalk_iff, lowFirst_iff, Except.ok.injEq]
  have small : (∀ f ∈ faces, f.edge ≠ [] ∧ ∀ j, j < f.edge.length → turnOk edge f j = .ok true) →
      ∀ f ∈ faces, Small f.edge ∧ f.edge.length < 2 ^ 31 := by
    intro h f hf
    refine ⟨?_, hlen f hf⟩
    intro x hx
    obtain ⟨j, hj⟩ := List.mem_iff_getElem?.mp hx
    obtain ⟨e, o, n, o', a1, _, _, _, c, k, ⟨r, r1, _⟩, _⟩ :=
      (turnOk_iff hpos).mp ((h f hf).2 j (List.getElem?_eq_some_iff.mp hj).1)
    rw [hj, Option.some.injEq] at a1
    subst a1
    have := (List.getElem?_eq_some_iff.mp r1).1
    simp only at this
    omega
  constructor
  · rintro ⟨h1, h2, h3⟩
    refine ⟨by omega, fun f hf => (h1 f hf).1, ?_, h2, (facesSorted_iff (small h1)).mp h3⟩
    intro f hf j e he
    obtain ⟨e', o, n, o', a1, a2, a3, a4, a5⟩ := (turnOk_iff hpos).mp ((h1 f hf).2 j (List.getElem?_eq_some_iff.mp he).1)
    rw [he, Option.some.injEq] at a1
    subst a1
    exact ⟨o, n, o', a2, a3, a4, a5⟩
  · rintro ⟨-, h⟩
    have h1 : ∀ f ∈ faces, f.edge ≠ [] ∧ ∀ j, j < f.edge.length → turnOk edge f j = .ok true := by
      intro f hf
      refine ⟨h.nonempty f hf, fun j hj => (turnOk_iff hpos).mpr ?_⟩
      obtain ⟨o, n, o', a⟩ := h.turn f hf j _ (List.getElem?_eq_getElem hj)
      exact ⟨_, o, n, o', List.getElem?_eq_getElem hj, a⟩
    exact ⟨h1, h.first, (facesSorted_iff (small h1)).mpr h.sorted⟩

end Plc.Ok
