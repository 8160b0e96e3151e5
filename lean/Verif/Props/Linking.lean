import Verif.Proofs.Linking

/-! # C27: linking numbers -/

namespace Plc

open Plc.Strands Plc.Core Plc.Cmp

/-- Position `k` of crossing `c` belongs to component `K`. -/
def OnComp (cross : List Cross) (K : Comp) (c k : Nat) : Prop := ∃ e ∈ K.edge, slot cross c k = some e

/-- Components `A` and `B` meet at crossing `c`: one strand (positions 0, 2) belongs to one of
them, the other strand (positions 1, 3) to the other. -/
def Meets (cross : List Cross) (A B : Comp) (c : Nat) : Prop :=
  (OnComp cross A c 0 ∧ OnComp cross B c 1) ∨ (OnComp cross A c 1 ∧ OnComp cross B c 0)

instance (cross : List Cross) (K : Comp) (c k : Nat) : Decidable (OnComp cross K c k) := by
  unfold OnComp; infer_instance

instance (cross : List Cross) (A B : Comp) (c : Nat) : Decidable (Meets cross A B c) := by
  unfold Meets; infer_instance

/-- The sign of a crossing as a number. -/
def signOf (cross : List Cross) (c : Nat) : Int :=
  match cross[c]? with
  | some x => if x.sign = .pos then 1 else if x.sign = .neg then -1 else 0
  | none => 0

/-- The sum of the signs of the crossings where `A` and `B` meet. -/
def signSum (cross : List Cross) (A B : Comp) : Int :=
  ((List.range cross.length).map (fun c => if Meets cross A B c then signOf cross c else 0)).sum

/-- The number of crossings where `A` and `B` meet. -/
def meetCount (cross : List Cross) (A B : Comp) : Nat :=
  (List.range cross.length).countP (fun c => Meets cross A B c)

namespace Strands

theorem onComp_iff {cross : List Cross} {K : Comp} {c k : Nat} :
    onComp cross K c k = true ↔ OnComp cross K c k := by
  unfold onComp OnComp
  cases slot cross c k <;> simp

theorem not_both_on {cross : List Cross} {edge : List Edge} {comps : List Comp} (hK : CompsOf cross edge comps)
    {c1 c2 : Nat} {A B : Comp} (hA : comps[c1]? = some A) (hB : comps[c2]? = some B) (hne : c1 ≠ c2) {c k : Nat}
    (h1 : OnComp cross A c k) (h2 : OnComp cross B c k) : False := by
  obtain ⟨e, a1, a2⟩ := h1
  obtain ⟨e', b1, b2⟩ := h2
  rw [a2] at b2
  cases b2
  exact hne (comp_unique hK hA hB a1 b1)

theorem sg_sign {cross : List Cross} (hs : ∀ x ∈ cross, x.sign ≠ .unset) {c : Nat} :
    sg cross lkSign c = signOf cross c := by
  unfold sg signOf
  match h : cross[c]? with
  | none => rfl
  | some x =>
    have := hs x (List.mem_of_getElem? h)
    simp only [Option.map_some, Option.getD_some]
    cases hx : x.sign with
    | pos => rfl
    | neg => rfl
    | unset => exact absurd hx this

/-- The sum over edges of one component, for a weight of crossings. -/
theorem edge_sum {cross : List Cross} {edge : List Edge} {comps : List Comp} (hC : Consistent cross edge)
    (hO : Oriented cross edge) (hK : CompsOf cross edge comps) {c1 c2 : Nat} {A B : Comp}
    (hA : comps[c1]? = some A) (hB : comps[c2]? = some B) (hne : c1 ≠ c2) (g : Or → Int) :
    (A.edge.map (wt cross edge g B)).sum =
      ((List.range cross.length).map (fun c => if Meets cross A B c then sg cross g c else 0)).sum := by
  rw [sum_eq hC hO hK (List.mem_of_getElem? hA) (List.mem_of_getElem? hB)]
  congr 1
  apply List.map_congr_left
  intro c _
  simp only [onComp_iff]
  unfold Meets
  by_cases a : OnComp cross A c 0 <;> by_cases b : OnComp cross A c 1 <;>
    by_cases x : OnComp cross B c 0 <;> by_cases y : OnComp cross B c 1 <;> simp [a, b, x, y]
  all_goals first
    | exact absurd (not_both_on hK hA hB hne a x) id

/-- The same when both components are the same: each crossing is met twice. -/
theorem self_sum {cross : List Cross} {edge : List Edge} {comps : List Comp} (hC : Consistent cross edge)
    (hO : Oriented cross edge) (hK : CompsOf cross edge comps) {c1 : Nat} {A : Comp}
    (hA : comps[c1]? = some A) (g : Or → Int) :
    (A.edge.map (wt cross edge g A)).sum =
      2 * ((List.range cross.length).map (fun c => if Meets cross A A c then sg cross g c else 0)).sum := by
  rw [sum_eq hC hO hK (List.mem_of_getElem? hA) (List.mem_of_getElem? hA), ← List.sum_map_mul_left]
  congr 1
  apply List.map_congr_left
  intro c _
  simp only [onComp_iff]
  unfold Meets
  by_cases a : OnComp cross A c 0 <;> by_cases b : OnComp cross A c 1 <;> simp [a, b]
  omega

theorem meets_comm (cross : List Cross) (A B : Comp) (c : Nat) : Meets cross A B c ↔ Meets cross B A c := by
  unfold Meets
  constructor <;> (rintro (⟨a, b⟩ | ⟨a, b⟩)) <;> [right; left; right; left] <;> exact ⟨b, a⟩

theorem count_sum {cross : List Cross} {A B : Comp} :
    ((List.range cross.length).map (fun c => if Meets cross A B c then sg cross (fun _ => 1) c else 0)).sum =
      (meetCount cross A B : Int) := by
  unfold meetCount
  have : ∀ l : List Nat, (∀ c ∈ l, c < cross.length) →
      (l.map (fun c => if Meets cross A B c then sg cross (fun _ => 1) c else 0)).sum =
      ((l.countP (fun c => decide (Meets cross A B c)) : Nat) : Int) := by
    intro l
    induction l with
    | nil => intro _; rfl
    | cons c l ih =>
      intro h
      rw [List.map_cons, List.sum_cons, ih (fun c hc => h c (by simp [hc])), List.countP_cons]
      have hs : sg cross (fun _ => 1) c = 1 := by
        unfold sg
        rw [List.getElem?_eq_getElem (h c (by simp))]
        rfl
      rw [hs]
      by_cases hm : Meets cross A B c
      · simp [hm]; omega
      · simp [hm]
  exact this _ (fun c hc => List.mem_range.mp hc)

end Strands

/-- **C27.** The linking number of two different components is half the sum of the signs of
the crossings where they meet, rounded towards zero when that sum is odd. -/
theorem C27_linking_number (cross : List Cross) (edge : List Edge) (comps : List Comp)
    (hC : Consistent cross edge) (hO : Oriented cross edge) (hK : CompsOf cross edge comps)
    (hs : ∀ x ∈ cross, x.sign ≠ .unset) (c1 c2 : Nat) (A B : Comp)
    (hA : comps[c1]? = some A) (hB : comps[c2]? = some B) (hne : c1 ≠ c2) :
    linkingNumber cross edge comps c1 c2 = .ok ((signSum cross A B).tdiv 2) := by
  have h1 := (List.getElem?_eq_some_iff.mp hA).1
  have h2 := (List.getElem?_eq_some_iff.mp hB).1
  unfold linkingNumber
  rw [assertC_ok (by simpa using h1), ok_bind, assertC_ok (by simpa using h2), ok_bind,
    assertC_ok (by simpa using hs), ok_bind, rd_ok hA, ok_bind, rd_ok hB, ok_bind]
  unfold signSum
  split
  · rw [lkLoop_eq hC hK hB _ _ (fun e he => comp_lt hK (List.mem_of_getElem? hA) he), ok_bind,
      edge_sum hC hO hK hA hB hne, Int.zero_add]
    simp only [sg_sign hs]
  · rw [lkLoop_eq hC hK hA _ _ (fun e he => comp_lt hK (List.mem_of_getElem? hB) he), ok_bind,
      edge_sum hC hO hK hB hA (Ne.symm hne), Int.zero_add]
    simp only [sg_sign hs, meets_comm cross B A]

/-- **C27.** It does not depend on the order of the two components. -/
theorem C27_linking_symm (cross : List Cross) (edge : List Edge) (comps : List Comp)
    (hC : Consistent cross edge) (hO : Oriented cross edge) (hK : CompsOf cross edge comps)
    (hs : ∀ x ∈ cross, x.sign ≠ .unset) (c1 c2 : Nat) (h1 : c1 < comps.length) (h2 : c2 < comps.length) :
    linkingNumber cross edge comps c1 c2 = linkingNumber cross edge comps c2 c1 := by
  by_cases hne : c1 = c2
  · rw [hne]
  · rw [C27_linking_number cross edge comps hC hO hK hs c1 c2 _ _ (List.getElem?_eq_getElem h1)
      (List.getElem?_eq_getElem h2) hne,
      C27_linking_number cross edge comps hC hO hK hs c2 c1 _ _ (List.getElem?_eq_getElem h2)
      (List.getElem?_eq_getElem h1) (Ne.symm hne)]
    unfold signSum
    simp only [meets_comm cross comps[c1] comps[c2]]

/-- **C27.** It changes sign when the signs of the crossings where the components meet are
flipped; signs of other crossings do not matter. -/
theorem C27_linking_flip (cross cross' : List Cross) (edge : List Edge) (comps : List Comp)
    (hC : Consistent cross edge) (hO : Oriented cross edge) (hK : CompsOf cross edge comps)
    (hs : ∀ x ∈ cross, x.sign ≠ .unset) (hs' : ∀ x ∈ cross', x.sign ≠ .unset)
    (c1 c2 : Nat) (A B : Comp) (hA : comps[c1]? = some A) (hB : comps[c2]? = some B) (hne : c1 ≠ c2)
    (hslot : ∀ c k, slot cross' c k = slot cross c k)
    (hflip : ∀ (c : Nat) (x x' : Cross), cross[c]? = some x → cross'[c]? = some x' → Meets cross A B c →
      x'.sign ≠ x.sign) (hlen : cross'.length = cross.length) :
    ∃ v, linkingNumber cross edge comps c1 c2 = .ok v ∧ linkingNumber cross' edge comps c1 c2 = .ok (-v) := by
  have hC' : Consistent cross' edge :=
    ⟨by rw [hlen]; exact hC.count, fun e r h => by rw [hslot]; exact hC.head e r h,
      fun e r h => by rw [hslot]; exact hC.tail e r h, hC.ends_ne⟩
  have hO' : Oriented cross' edge := ⟨hO.through_head, hO.through_tail⟩
  have hK' : CompsOf cross' edge comps := ⟨hK.all, fun c hc e e' he hf => by
    obtain ⟨r, h1, h2⟩ := hf
    rw [hslot] at h2
    exact hK.closed c hc e e' he ⟨r, h1, h2⟩⟩
  refine ⟨_, C27_linking_number cross edge comps hC hO hK hs c1 c2 A B hA hB hne, ?_⟩
  rw [C27_linking_number cross' edge comps hC' hO' hK' hs' c1 c2 A B hA hB hne, ← Int.neg_tdiv]
  congr 2
  unfold signSum
  have hneg : ∀ l : List Int, -l.sum = (l.map (fun x => -x)).sum := by
    intro l
    induction l with
    | nil => rfl
    | cons x l ih => rw [List.sum_cons, List.map_cons, List.sum_cons, ← ih]; omega
  rw [hlen, hneg]
  congr 1
  rw [List.map_map]
  apply List.map_congr_left
  intro c hc
  rw [List.mem_range] at hc
  have hm : Meets cross' A B c ↔ Meets cross A B c := by
    unfold Meets OnComp
    simp only [hslot]
  simp only [Function.comp_apply, hm]
  split
  · rename_i hmm
    have hx := List.getElem?_eq_getElem hc
    have hx' := List.getElem?_eq_getElem (show c < cross'.length by omega)
    have h1 := hflip c _ _ hx hx' hmm
    have h2 := hs _ (List.getElem_mem hc)
    have h3 := hs' _ (List.getElem_mem (show c < cross'.length by omega))
    unfold signOf
    rw [hx, hx']
    simp only
    generalize (cross[c]).sign = a at *
    generalize (cross'[c]'(by omega)).sign = b at *
    cases a <;> cases b <;> simp_all
  · rfl

/-- For twice the same component the result is the sum of the signs of its self-crossings, its
writhe. -/
theorem C27_linking_self (cross : List Cross) (edge : List Edge) (comps : List Comp)
    (hC : Consistent cross edge) (hO : Oriented cross edge) (hK : CompsOf cross edge comps)
    (hs : ∀ x ∈ cross, x.sign ≠ .unset) (c1 : Nat) (A : Comp) (hA : comps[c1]? = some A) :
    linkingNumber cross edge comps c1 c1 = .ok (signSum cross A A) := by
  have h1 := (List.getElem?_eq_some_iff.mp hA).1
  unfold linkingNumber
  rw [assertC_ok (by simpa using h1), ok_bind,
    assertC_ok (by simpa using hs), ok_bind, rd_ok hA, ok_bind, ok_bind, ok_bind, if_neg (by omega)]
  rw [lkLoop_eq hC hK hA _ _ (fun e he => comp_lt hK (List.mem_of_getElem? hA) he), ok_bind,
    self_sum hC hO hK hA, Int.zero_add]
  simp only [sg_sign hs]
  rw [Int.mul_tdiv_cancel_left _ (by decide)]
  rfl

/-- **C27.** The unsigned linking number is half the number of crossings where the two
components meet, rounded down. -/
theorem C27_unsigned (cross : List Cross) (edge : List Edge) (comps : List Comp)
    (hC : Consistent cross edge) (hO : Oriented cross edge) (hK : CompsOf cross edge comps)
    (c1 c2 : Nat) (A B : Comp) (hA : comps[c1]? = some A) (hB : comps[c2]? = some B) (hne : c1 ≠ c2) :
    unsignedLinkingNumber cross edge comps c1 c2 = .ok ((meetCount cross A B / 2 : Nat) : Int) := by
  have h1 := (List.getElem?_eq_some_iff.mp hA).1
  have h2 := (List.getElem?_eq_some_iff.mp hB).1
  have hdiv : ∀ n : Nat, (n : Int).tdiv 2 = ((n / 2 : Nat) : Int) := by
    intro n
    rw [Int.tdiv_eq_ediv_of_nonneg (by omega)]
    omega
  unfold unsignedLinkingNumber
  rw [assertC_ok (by simpa using h1), ok_bind, assertC_ok (by simpa using h2), ok_bind,
    rd_ok hA, ok_bind, rd_ok hB, ok_bind]
  split
  · rw [ulkLoop_eq hC hK hB _ _ (fun e he => comp_lt hK (List.mem_of_getElem? hA) he), ok_bind,
      edge_sum hC hO hK hA hB hne, Int.zero_add, count_sum]
    simp only [hdiv]
  · rw [ulkLoop_eq hC hK hA _ _ (fun e he => comp_lt hK (List.mem_of_getElem? hB) he), ok_bind,
      edge_sum hC hO hK hB hA (Ne.symm hne), Int.zero_add, count_sum]
    unfold meetCount
    simp only [hdiv, meets_comm cross B A]

/-! A Hopf link. -/

def hopfComps : List Comp := [⟨[0, 2], 65⟩, ⟨[1, 3], 66⟩]

example : CompsOf hopf2 hopf2Edge hopfComps := by
  refine ⟨by decide, ?_⟩
  intro c hc e e' he hf
  obtain ⟨r, h1, h2⟩ := hf
  have hlt := (List.getElem?_eq_some_iff.mp h1).1
  have key : ∀ c ∈ hopfComps, ∀ e, e < 4 → e ∈ c.edge → ∀ r, hopf2Edge[e]? = some r →
      ∀ e', slot hopf2 r.head ((r.headpos + 2) % 4) = some e' → e' ∈ c.edge := by
    intro c hc e he
    match e, he with
    | 0, _ | 1, _ | 2, _ | 3, _ =>
      all_goals
        intro hm r hr e' h'
        cases hr
        revert hm
        cases (Option.some.inj h')
        revert c
        decide
  exact key c hc e hlt he r h1 e' h2

example : Consistent hopf2 hopf2Edge ∧ Oriented hopf2 hopf2Edge ∧ (∀ x ∈ hopf2, x.sign ≠ .unset) ∧
    signSum hopf2 ⟨[0, 2], 65⟩ ⟨[1, 3], 66⟩ = 2 := by decide

example : linkingNumber hopf2 hopf2Edge hopfComps 0 1 = .ok 1 := by decide

end Plc
