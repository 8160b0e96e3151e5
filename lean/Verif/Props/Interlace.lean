import Verif.Proofs.Interlace
import Verif.Proofs.Std
import Verif.Props.Linking
import Mathlib.Tactic.IntervalCases

/-! # C28: interlaced crossings -/

namespace Plc

open Plc.Interlace Plc.Strands Plc.Cmp

/-- The crossings a walk along these edges meets, in order. -/
def visits (edge : List Edge) (l : List Nat) : List Nat := l.filterMap (fun e => edge[e]?.map (·.head))

/-- The visits to `a` and `b` alternate. -/
def Alternate (g : List Nat) (a b : Nat) : Prop :=
  List.Sublist [a, b, a, b] g ∨ List.Sublist [b, a, b, a] g

instance (g : List Nat) (a b : Nat) : Decidable (Alternate g a b) := by unfold Alternate; infer_instance

/-- The sign of a crossing in the sense of the comment at pd_invariants.c 50-64: with `e1` and `e2` the
outgoing edges, `e2` a quarter turn counterclockwise from `e1`, plus if `e1 > e2`. -/
def CrossingSign (cross : List Cross) (edge : List Edge) (c : Nat) (s : Int) : Prop :=
  ∃ k e1 e2, GoesOut cross edge c k ∧ GoesOut cross edge c ((k + 1) % 4) ∧
    slot cross c k = some e1 ∧ slot cross c ((k + 1) % 4) = some e2 ∧ s = if e1 > e2 then 1 else -1

namespace Interlace

theorem alt_count {g : List Nat} {a b : Nat} (h : Alternate g a b) : 2 ≤ g.count a ∧ 2 ≤ g.count b := by
  have key : ∀ a b : Nat, 2 ≤ [a, b, a, b].count a ∧ 2 ≤ [a, b, a, b].count b := by
    intro a b
    simp only [List.count_cons, List.count_nil, beq_self_eq_true, if_true]
    omega
  rcases h with h | h
  · exact ⟨(key a b).1.trans (h.count_le a), (key a b).2.trans (h.count_le b)⟩
  · exact ⟨(key b a).2.trans (h.count_le a), (key b a).1.trans (h.count_le b)⟩

theorem visits_eq {edge : List Edge} : ∀ {l : List Nat}, (∀ e ∈ l, e < edge.length) →
    visits edge l = l.map (hc edge)
  | [], _ => rfl
  | e :: l, h => by
    have he := h e (by simp)
    have ih := visits_eq (edge := edge) (l := l) (fun x hx => h x (List.mem_cons_of_mem _ hx))
    unfold visits at *
    rw [List.filterMap_cons, List.getElem?_eq_getElem he]
    simp only [Option.map_some, List.map_cons]
    rw [ih, hc, getElem!_pos edge e he]

theorem polyak_ok {cross : List Cross} {edge : List Edge} (hC : Consistent cross edge) (hO : Oriented cross edge)
    {c : Nat} (hlt : c < cross.length) : ∃ s, polyakSign cross edge c = .ok s ∧ CrossingSign cross edge c (-s) := by
  have hx := List.getElem?_eq_getElem hlt
  generalize hxe : cross[c] = x at hx
  have hslot : ∀ c' k, slot (cross.set c { x with sign := .pos }) c' k = slot cross c' k := by
    intro c' k
    unfold slot
    split
    · by_cases hc : c' = c
      · subst hc
        rw [List.getElem?_set_self hlt, hx]
        rfl
      · rw [List.getElem?_set_ne (Ne.symm hc)]
    · rfl
  have hC' : Consistent (cross.set c { x with sign := .pos }) edge :=
    ⟨by simpa using hC.count, fun e r h => by rw [hslot]; exact hC.head e r h,
      fun e r h => by rw [hslot]; exact hC.tail e r h, hC.ends_ne⟩
  have hO' : Oriented (cross.set c { x with sign := .pos }) edge :=
    ⟨hO.through_head, hO.through_tail⟩
  have hout : ∀ k, GoesOut (cross.set c { x with sign := .pos }) edge c k ↔ GoesOut cross edge c k := by
    intro k
    unfold GoesOut
    simp only [hslot]
  obtain ⟨u, h1, h2, h3, h4, h5, h6, h7, h8, h9, h10⟩ := C26_overunder _ edge hC' hO' c _
    (List.getElem?_set_self hlt)
  rw [hout] at h7 h9
  simp only [reduceCtorEq, if_false] at h10
  have hoo : u.overOut < 4 := by omega
  have huo : u.underOut < 4 := by omega
  have s1 := slot_of_lt hlt hoo
  have s2 := slot_of_lt hlt huo
  rw [hxe] at s1 s2
  have hne : x.at u.overOut ≠ x.at u.underOut := by
    obtain ⟨e, r, a1, a2, a3, a4⟩ := h7
    obtain ⟨e', r', b1, b2, b3, b4⟩ := h9
    rw [a1] at s1
    rw [b1] at s2
    cases s1
    cases s2
    intro he
    rw [he, b2] at a2
    cases a2
    omega
  refine ⟨if x.at u.underOut > x.at u.overOut then 1 else -1, ?_, u.overOut, x.at u.overOut, x.at u.underOut, h7, ?_, s1, ?_, ?_⟩
  · unfold polyakSign overstrandPos understrandPos
    rw [rd_ok hx, ok_bind]
    simp only [h1, ok_bind]
    obtain ⟨oi, oo, ui, uo⟩ := u
    simp only at h10 hoo huo ⊢
    have hr1 : x.rdPos oo = .ok (x.at oo) := Cross.rdPos_lt hoo
    have hr2 : x.rdPos uo = .ok (x.at uo) := Cross.rdPos_lt huo
    have : (oo = 0 ∧ uo = 1) ∨ (oo = 1 ∧ uo = 2) ∨ (oo = 2 ∧ uo = 3) ∨ (oo = 3 ∧ uo = 0) := by omega
    rcases this with ⟨rfl, rfl⟩ | ⟨rfl, rfl⟩ | ⟨rfl, rfl⟩ | ⟨rfl, rfl⟩ <;>
      simp [hr1, hr2, assertC, ok_bind]
  · rw [← h10]; exact h9
  · rw [← h10]; exact s2
  · split_ifs <;> first | rfl | omega

theorem sign_unique {cross : List Cross} {edge : List Edge} (hC : Consistent cross edge) (hO : Oriented cross edge)
    {c : Nat} {s t : Int} (h1 : CrossingSign cross edge c s) (h2 : CrossingSign cross edge c t) : s = t := by
  obtain ⟨k, a, b, g1, g2, s1, s2, rfl⟩ := h1
  obtain ⟨k', a', b', g1', g2', s1', s2', rfl⟩ := h2
  have hk : k < 4 := (slot_lt s1).2
  have hk' : k' < 4 := (slot_lt s1').2
  have hkk : k = k' := by
    by_contra hne
    have n1 := fun h => not_both hC (k := k) h g1
    have n2 := fun h => not_both hC (k := (k + 1) % 4) h g2
    have p1 := out_opp hC hO g1
    have p2 := out_opp hC hO g2
    have q1 := fun h => not_both hC (k := (k + 2) % 4) p1 h
    have q2 := fun h => not_both hC (k := ((k + 1) % 4 + 2) % 4) p2 h
    have : k' = (k + 1) % 4 ∨ k' = (k + 2) % 4 ∨ k' = ((k + 1) % 4 + 2) % 4 := by omega
    rcases this with h | h | h
    · apply q1
      have : (k' + 1) % 4 = (k + 2) % 4 := by omega
      rw [← this]
      exact g2'
    · apply q1; rw [← h]; exact g1'
    · apply q2; rw [← h]; exact g1'
  subst hkk
  rw [s1] at s1'; cases s1'
  rw [s2] at s2'; cases s2'
  rfl

end Interlace

open Finset in
/-- The general form of the two counts. -/
theorem Interlace.main (qs : QSort) {cross : List Cross} {edge : List Edge} {comps : List Comp}
    (hC : Consistent cross edge) (hO : Oriented cross edge) (hK : CompsOf cross edge comps)
    {i : Nat} {K : Comp} (hi : comps[i]? = some K) (signs : Bool) (w : Nat → Int)
    (hw : if signs then ∀ c < cross.length, polyakSign cross edge c = .ok (w c) else ∀ c, w c = 1) :
    interlacedComp qs cross edge comps i signs =
      .ok (∑ b ∈ range cross.length, ∑ a ∈ range b, if Alternate (visits edge K.edge) a b then w b * w a else 0) := by
  have hlt : ∀ e ∈ K.edge, e < edge.length := fun e he => comp_lt hK (List.mem_of_getElem? hi) he
  have hnd := comp_nodup hK (List.mem_of_getElem? hi)
  rw [visits_eq hlt]
  set L := K.edge.map (hc edge) with hL
  set n := cross.length with hn
  have hhc : ∀ e ∈ K.edge, hc edge e < n := by
    intro e he
    have := (slot_lt (hC.head e _ (List.getElem?_eq_getElem (hlt e he)))).1
    unfold hc
    rw [getElem!_pos edge e (hlt e he)]
    exact this
  have hLn : ∀ x ∈ L, x < n := by
    intro x hx
    obtain ⟨e, he, rfl⟩ := List.mem_map.mp hx
    exact hhc e he
  have hcount : ∀ x, L.count x ≤ 2 := by
    intro x
    by_cases hx : x < n
    · obtain ⟨e0, e1, _, _, _, _, _, _, _, _, _, _, _, _, _, hall⟩ := incoming hC hO hx
      have : L.count x = (K.edge.filter (fun e => hc edge e == x)).length := by
        rw [hL, List.count_eq_countP, List.countP_map, List.countP_eq_length_filter]
        rfl
      rw [this]
      have hsub : K.edge.filter (fun e => hc edge e == x) ⊆ [e0, e1] := by
        intro e he
        rw [List.mem_filter] at he
        have := hall e (hlt e he.1) (by simpa using he.2)
        simpa using this
      exact ((List.subperm_of_subset (hnd.filter _) hsub).length_le)
    · rw [List.count_eq_zero.mpr (fun h => hx (hLn x h))]
      omega
  -- the code
  have hg := gaussCode_ok edge K.edge hlt
  have hG : K.edge.map (fun e => hc edge e + 1) = L.map (· + 1) := by rw [hL, List.map_map]; rfl
  rw [hG] at hg
  set G := L.map (· + 1) with hGd
  have hGc : ∀ x, G.count (x + 1) = L.count x := by
    intro x
    exact List.count_map_of_injective L (· + 1) (fun a b h => by simpa using h) x
  have hG2 : ∀ x, G.count x ≤ 2 := by
    intro x
    cases x with
    | zero =>
      rw [List.count_eq_zero.mpr]
      · omega
      · intro h; obtain ⟨z, _, hz⟩ := List.mem_map.mp h; omega
    | succ x => rw [hGc]; exact hcount x
  have hGr : ∀ g ∈ G, 1 ≤ g ∧ g < n + 1 := by
    intro g h
    obtain ⟨z, hz, rfl⟩ := List.mem_map.mp h
    have := hLn z hz
    omega
  obtain ⟨code, hm1, hm2, hm3⟩ := markFirst_ok G (List.replicate (n + 1) 0) (by simpa using hGr)
  have hpc : ∀ x, 1 ≤ x → ((code.filter (fun z => decide (z > 0))).map Int.natAbs).count x = G.count x - 1 := by
    intro x hx
    rw [hm3 x hx, if_pos]
    rw [List.getElem?_replicate]
    split <;> rfl
  set P := (code.filter (fun z => decide (z > 0))).map Int.natAbs with hP
  have hP0 : ∀ x ∈ P, 1 ≤ x ∧ x < n + 1 := by
    intro x hx
    obtain ⟨z, hz, rfl⟩ := List.mem_map.mp hx
    rw [List.mem_filter] at hz
    refine hGr _ ?_
    rw [← hm2]
    exact List.mem_map_of_mem hz.1
  have hPnd : P.Nodup := by
    rw [List.nodup_iff_count_le_one]
    intro x
    by_cases hx : 1 ≤ x
    · rw [hpc x hx]
      have := hG2 x
      omega
    · rw [List.count_eq_zero.mpr (fun h => hx (hP0 x h).1)]
      omega
  have hPm : ∀ x, x ∈ P ↔ G.count x = 2 := by
    intro x
    by_cases hx : 1 ≤ x
    · rw [← List.count_pos_iff, hpc x hx]
      have := hG2 x
      omega
    · constructor
      · intro h; exact absurd (hP0 x h).1 hx
      · intro h
        have : x ∈ G := by rw [← List.count_pos_iff]; omega
        exact absurd (hGr x this).1 hx
  have hPlen : P.length ≤ n := by
    have hsub : P ⊆ (List.range n).map (· + 1) := by
      intro x hx
      have := hP0 x hx
      exact List.mem_map.mpr ⟨x - 1, List.mem_range.mpr (by omega), by omega⟩
    have := (List.subperm_of_subset hPnd hsub).length_le
    simpa using this
  unfold interlacedComp
  rw [rd_ok hi, ok_bind, hg, ok_bind, hm1, ok_bind]
  simp only
  rw [← hP, if_neg (by omega)]
  by_cases hP00 : P.length = 0
  · -- no crossing is met twice
    rw [if_pos hP00]
    congr 1
    symm
    apply sum_eq_zero
    intro b _
    apply sum_eq_zero
    intro a _
    rw [if_neg]
    intro h
    have : ∀ x, L.count x < 2 := by
      intro x
      have h1 := hPm (x + 1)
      rw [List.eq_nil_of_length_eq_zero hP00, hGc] at h1
      have := hcount x
      have h2 : ¬ L.count x = 2 := fun hh => by simpa using h1.mpr hh
      omega
    have h1 := (alt_count h).1
    have h2 := this a
    omega
  rw [if_neg hP00]
  -- sorting and labelling
  have hSp := qs.perm natLe P
  have hSs := qs.sorted natLe P (by intro a b _ _; simp [natLe]; omega)
    (by intro a b c _ _ _; simp [natLe]; omega)
  set S := qs.sort natLe P with hS
  have hSnd : S.Nodup := hSp.nodup_iff.mpr hPnd
  have hSm : ∀ x, x ∈ S ↔ G.count x = 2 := fun x => by rw [hSp.mem_iff, hPm]
  have hS0 : ∀ x ∈ S, 1 ≤ x ∧ x < n + 1 := fun x hx => hP0 x (hSp.mem_iff.mp hx)
  have hcp : 0 < S.length := by rw [hSp.length_eq]; omega
  have hSinc : ∀ (i j : Nat) (hi : i < S.length) (hj : j < S.length), i < j → S[i] < S[j] := by
    intro i j hi hj hij
    have h1 := List.pairwise_iff_getElem.mp hSs i j hi hj hij
    have h2 : S[i] ≠ S[j] := fun h => by
      have := (List.Nodup.getElem_inj_iff hSnd).mp h
      omega
    simp [natLe] at h1
    omega
  obtain ⟨nl, hn1, hn2, hn3⟩ := newLabels_ok S 0 (List.replicate (n + 1) 0) hSnd (by
    intro c hc
    rw [List.length_replicate]
    exact (hS0 c hc).2)
  have hnl : ∀ c, nl[c]?.getD 0 = if c ∈ S then S.idxOf c + 1 else 0 := by
    intro c
    rw [hn3 c, Nat.zero_add]
    split
    · rfl
    · rw [List.getElem?_replicate]; split <;> rfl
  rw [List.length_replicate] at hn2
  obtain ⟨aug, ha1, ha2⟩ := augment_ok nl code (by
    intro g hgm
    rw [hn2]
    refine (hGr _ ?_).2
    rw [← hm2]
    exact List.mem_map_of_mem hgm)
  have haug : ab aug = (G.filter (fun c => decide (c ∈ S))).map (fun c => if c ∈ S then S.idxOf c + 1 else 0) := by
    rw [ha2, hm2]
    simp only [hnl]
    congr 1
    apply List.filter_congr
    intro c _
    by_cases h : c ∈ S <;> simp [h]
  have hGp : (G.filter (fun c => decide (c ∈ S))).Perm (S ++ S) := by
    rw [List.perm_iff_count]
    intro x
    rw [List.count_append]
    by_cases hx : x ∈ S
    · rw [List.count_filter (by simpa using hx), (hSm x).mp hx, List.count_eq_one_of_mem hSnd hx]
    · rw [List.count_eq_zero.mpr hx, List.count_eq_zero.mpr]
      intro h
      rw [List.mem_filter] at h
      exact hx (by simpa using h.2)
  have haugl : aug.length = 2 * S.length := by
    have h1 : (ab aug).length = aug.length := by simp [ab]
    rw [← h1, haug, List.length_map, hGp.length_eq, List.length_append]
    omega
  rw [hn1, ok_bind, ha1, ok_bind, if_neg (by omega), assertC_ok (by simpa using haugl), ok_bind]
  -- the bubble sort
  have hshape : Shape S.length ((List.range (S.length + 1)).map (fun i => List.replicate (if i < 2 then 0 else i) 0)) := by
    refine ⟨by simp, ?_⟩
    intro i r h
    rw [List.getElem?_map, Option.map_eq_some_iff] at h
    obtain ⟨j, hj, rfl⟩ := h
    rw [List.getElem?_eq_some_iff] at hj
    obtain ⟨_, hj⟩ := hj
    rw [List.getElem_range] at hj
    subst hj
    rw [List.length_replicate]
    rfl
  have hcell0 : ∀ y x, cell ((List.range (S.length + 1)).map (fun i => List.replicate (if i < 2 then 0 else i) 0)) y x = 0 := by
    intro y x
    unfold cell
    rw [List.getElem?_map]
    cases (List.range (S.length + 1))[y]? with
    | none => simp
    | some j =>
      simp only [Option.map_some, Option.getD_some]
      rw [List.getElem?_replicate]
      generalize (if j < 2 then 0 else j) = m
      split <;> rfl
  obtain ⟨s, hs1, hs2, hs3⟩ := sortLoop_ok (cp := S.length) (2 * S.length) aug _ (ab aug) [] hshape (by
      intro x hx
      have : x.natAbs ∈ ab aug := List.mem_map_of_mem hx
      rw [haug] at this
      obtain ⟨c, hc, hcx⟩ := List.mem_map.mp this
      have hcS : c ∈ S := by simpa using (List.mem_filter.mp hc).2
      rw [if_pos hcS] at hcx
      have := List.idxOf_lt_length_iff.mpr hcS
      omega) (by rintro rfl; rw [List.length_nil] at haugl; omega) (by simp) (by simp [ab, haugl]) (by simp) (by simp)
  rw [hs1, ok_bind]
  -- the sum
  let t : Nat → Nat := fun i => S[i]?.getD 0 - 1
  have ht : ∀ i (h : i < S.length), t i + 1 = S[i] := by
    intro i h
    have := hS0 S[i] (List.getElem_mem h)
    simp only [t]
    rw [List.getElem?_eq_getElem h]
    simp only [Option.getD_some]
    omega
  have hodd : ∀ i j, j < i → i < S.length → (cell s (i + 1) (j + 1) % 2 ≠ 0 ↔ Alternate L (t j) (t i)) := by
    intro i j hji hi
    have hj : j < S.length := by omega
    rw [hs3 (i + 1) (j + 1) (by omega), hcell0, Nat.zero_add, haug]
    have e1 : i + 1 = (fun c => if c ∈ S then S.idxOf c + 1 else 0) S[i] := by
      simp only
      rw [if_pos (List.getElem_mem hi), hSnd.idxOf_getElem]
    have e2 : j + 1 = (fun c => if c ∈ S then S.idxOf c + 1 else 0) S[j] := by
      simp only
      rw [if_pos (List.getElem_mem hj), hSnd.idxOf_getElem]
    have hinj : ∀ y ∈ S, ∀ z ∈ G.filter (fun c => decide (c ∈ S)),
        (fun c => if c ∈ S then S.idxOf c + 1 else 0) z = (fun c => if c ∈ S then S.idxOf c + 1 else 0) y → z = y := by
      intro y hy z hz h
      have hz : z ∈ S := by simpa using (List.mem_filter.mp hz).2
      simp only [if_pos hy, if_pos hz] at h
      exact (List.idxOf_inj hz).mp (by omega)
    rw [e1, e2, inv_map _ _ (hinj _ (List.getElem_mem hi)) (hinj _ (List.getElem_mem hj)),
      inv_filter _ (by simp) (by simp)]
    have e3 : inv S[i] S[j] G = inv (t i) (t j) L := by
      rw [← ht i hi, ← ht j hj]
      exact inv_map (· + 1) L (fun z _ h => by simpa using h) (fun z _ h => by simpa using h)
    rw [e3]
    have hlt' := hSinc j i hj hi hji
    have h1 := ht i hi
    have h2 := ht j hj
    exact inv_odd (by omega) (by rw [← hGc, h2]; exact (hSm _).mp (List.getElem_mem hj))
      (by rw [← hGc, h1]; exact (hSm _).mp (List.getElem_mem hi))
  have hterm : ∀ i j, j < i → i < S.length →
      pairTerm cross edge signs (0 :: S.map (fun c => c - 1)) s (i + 1) (j + 1) =
        .ok (if Alternate L (t j) (t i) then w (t i) * w (t j) else 0) := by
    intro i j hji hi
    have hj : j < S.length := by omega
    have hrow : i + 1 < s.length := by have := hs2.1; omega
    have hrl := hs2.2 (i + 1) _ (List.getElem?_eq_getElem hrow)
    have hcol : j + 1 < s[i + 1].length := by rw [hrl]; unfold rowLen; rw [if_neg (by omega)]; omega
    have hc : s[i + 1][j + 1] = cell s (i + 1) (j + 1) := by
      unfold cell
      rw [List.getElem?_eq_getElem hrow]
      simp only [Option.getD_some]
      rw [List.getElem?_eq_getElem hcol]
      rfl
    have hold : ∀ k, k < S.length → rd (0 :: S.map (fun c => c - 1)) (k + 1) = .ok (t k) := by
      intro k hk
      apply rd_ok
      rw [List.getElem?_cons_succ, List.getElem?_map, List.getElem?_eq_getElem hk]
      simp only [t, Option.map_some]
      rw [List.getElem?_eq_getElem hk]
      rfl
    have htn : ∀ k, k < S.length → t k < n := by
      intro k hk
      have h1 := ht k hk
      have h2 := hS0 S[k] (List.getElem_mem hk)
      omega
    unfold pairTerm
    rw [rd_lt hrow, ok_bind, rd_lt hcol, ok_bind, hc]
    by_cases ho : cell s (i + 1) (j + 1) % 2 ≠ 0
    · rw [if_pos ho, if_pos ((hodd i j hji hi).mp ho)]
      cases signs with
      | true =>
        simp only [if_true] at hw ⊢
        rw [hold i hi, ok_bind, hold j hj, ok_bind, hw _ (htn i hi), ok_bind, hw _ (htn j hj), ok_bind]
      | false =>
        simp only [Bool.false_eq_true, if_false] at hw ⊢
        rw [hw, hw]
        rfl
    · rw [if_neg ho, if_neg (fun h => ho ((hodd i j hji hi).mpr h))]
  let F : Nat → Nat → Int := fun b a => if Alternate L a b then w b * w a else 0
  have hinner : ∀ i, i < S.length →
      sumRes (pairTerm cross edge signs (0 :: S.map (fun c => c - 1)) s (i + 1)) (List.range' 1 (i + 1 - 1)) 0 =
        .ok (∑ j ∈ range i, F (t i) (t j)) := by
    intro i hi
    rw [sumRes_ok _ (fun j => F (t i) (t (j - 1)))]
    · rw [range'_sum, Int.zero_add]
      congr 1
      apply sum_congr rfl
      intro j _
      rw [Nat.add_sub_cancel_left]
    · intro j hj
      rw [List.mem_range'_1] at hj
      have := hterm i (j - 1) (by omega) hi
      rw [show j - 1 + 1 = j by omega] at this
      exact this
  rw [sumRes_ok _ (fun i => ∑ j ∈ range (i - 1), F (t (i - 1)) (t j))]
  · rw [range'_sum, Int.zero_add]
    congr 1
    have hps := pair_sum (cp := S.length) (n := n) t
      (fun i j hij hj => by
        have h1 := hSinc i j (by omega) hj hij
        have h2 := ht i (by omega)
        have h3 := ht j hj
        omega)
      (fun i hi => by
        have h1 := ht i hi
        have h2 := hS0 S[i] (List.getElem_mem hi)
        omega)
      F
      (by
        intro b a hb
        simp only [F]
        rw [if_neg]
        intro h
        have hcb : L.count b = 2 := by
          have h1 := hcount b
          have := (alt_count h).2
          omega
        rw [← hGc, ← hSm] at hcb
        obtain ⟨i, hi, hib⟩ := List.getElem_of_mem hcb
        have := ht i hi
        exact hb i hi (by omega))
      (by
        intro b a hb
        simp only [F]
        rw [if_neg]
        intro h
        have hcb : L.count a = 2 := by
          have h1 := hcount a
          have := (alt_count h).1
          omega
        rw [← hGc, ← hSm] at hcb
        obtain ⟨i, hi, hib⟩ := List.getElem_of_mem hcb
        have := ht i hi
        exact hb i hi (by omega))
    rw [← hps]
    obtain ⟨m, hm⟩ : ∃ m, S.length = m + 1 := ⟨S.length - 1, by omega⟩
    rw [hm, sum_range_succ' (n := m), Nat.add_sub_cancel]
    simp only [range_zero, sum_empty, add_zero]
    apply sum_congr rfl
    intro i _
    rw [show 2 + i - 1 = i + 1 by omega]
  · intro i hi
    rw [List.mem_range'_1] at hi
    have := hinner (i - 1) (by omega)
    rw [show i - 1 + 1 = i by omega] at this
    exact this

open Finset in
/-- **C28.** The unsigned count of a component is the number of pairs of crossings whose visits
along the component alternate. -/
theorem C28_unsigned (qs : QSort) (cross : List Cross) (edge : List Edge) (comps : List Comp)
    (hC : Consistent cross edge) (hO : Oriented cross edge) (hK : CompsOf cross edge comps)
    (i : Nat) (K : Comp) (hi : comps[i]? = some K) :
    interlacedComp qs cross edge comps i false =
      .ok (∑ b ∈ range cross.length, ∑ a ∈ range b, if Alternate (visits edge K.edge) a b then 1 else 0) := by
  rw [Interlace.main qs hC hO hK hi false (fun _ => 1) (by simp)]
  simp only [mul_one]

open Finset in
/-- **C28.** The signed count adds up the products of the signs of the two crossings over the same pairs. -/
theorem C28_signed (qs : QSort) (cross : List Cross) (edge : List Edge) (comps : List Comp)
    (hC : Consistent cross edge) (hO : Oriented cross edge) (hK : CompsOf cross edge comps)
    (i : Nat) (K : Comp) (hi : comps[i]? = some K) :
    ∃ sgn : Nat → Int, (∀ c < cross.length, CrossingSign cross edge c (sgn c)) ∧
    interlacedComp qs cross edge comps i true =
      .ok (∑ b ∈ range cross.length, ∑ a ∈ range b,
        if Alternate (visits edge K.edge) a b then sgn a * sgn b else 0) := by
  have h : ∀ c, ∃ s, c < cross.length → polyakSign cross edge c = .ok s ∧ CrossingSign cross edge c (-s) := by
    intro c
    by_cases hc : c < cross.length
    · obtain ⟨s, hs⟩ := polyak_ok hC hO hc
      exact ⟨s, fun _ => hs⟩
    · exact ⟨0, fun h => absurd h hc⟩
  choose w hw using h
  refine ⟨fun c => - w c, fun c hc => (hw c hc).2, ?_⟩
  rw [Interlace.main qs hC hO hK hi true w (by simpa using fun c hc => (hw c hc).1)]
  congr 1
  apply sum_congr rfl
  intro b _
  apply sum_congr rfl
  intro a _
  split
  · rw [neg_mul_neg, mul_comm]
  · rfl

/-- **C28.** A crossing has only one sign. -/
theorem C28_sign_unique (cross : List Cross) (edge : List Edge) (hC : Consistent cross edge)
    (hO : Oriented cross edge) (c : Nat) (s t : Int) (h1 : CrossingSign cross edge c s)
    (h2 : CrossingSign cross edge c t) : s = t ∧ (s = 1 ∨ s = -1) := by
  refine ⟨sign_unique hC hO h1 h2, ?_⟩
  obtain ⟨_, _, _, _, _, _, _, rfl⟩ := h1
  split <;> simp

/-- **C28.** Where the walk along a component starts does not matter. -/
theorem C28_start (u v : List Nat) (a b : Nat) (hab : a ≠ b) (ha : (u ++ v).count a = 2)
    (hb : (u ++ v).count b = 2) : Alternate (u ++ v) a b ↔ Alternate (v ++ u) a b := by
  have hp : (v ++ u).Perm (u ++ v) := List.perm_append_comm
  rw [Alternate, Alternate, ← inv_odd hab ha hb,
    ← inv_odd hab (by rw [hp.count_eq, ha]) (by rw [hp.count_eq, hb])]
  have key : ∀ u v : List Nat, inv b a (u ++ v) = inv b a u + inv b a v + u.count b * v.count a := by
    intro u v
    induction u with
    | nil => simp [inv]
    | cons c u ih =>
      rw [List.cons_append, inv, inv, ih, List.count_append, List.count_cons]
      by_cases hc : c = b
      · simp [hc]; ring
      · simp [hc]
  rw [key, key]
  rw [List.count_append] at ha hb
  have : u.count b * v.count a % 2 = v.count b * u.count a % 2 := by
    have h1 : u.count b = 2 - v.count b := by omega
    have h2 : v.count b ≤ 2 := by omega
    have h3 : v.count a = 2 - u.count a := by omega
    have h4 : u.count a ≤ 2 := by omega
    rw [h1, h3]
    interval_cases v.count b <;> interval_cases u.count a <;> rfl
  omega

/-- **C28.** The counts of all components are reported in order. -/
theorem C28_all (qs : QSort) (cross : List Cross) (edge : List Edge) (comps : List Comp)
    (hC : Consistent cross edge) (hO : Oriented cross edge) (hK : CompsOf cross edge comps) (signs : Bool) :
    ∃ r, interlacedCrossings qs cross edge comps signs comps.length 0 = .ok r ∧ r.length = comps.length ∧
      ∀ i < comps.length, ∃ v, interlacedComp qs cross edge comps i signs = .ok v ∧ r[i]? = some v := by
  have hone : ∀ i < comps.length, ∃ v, interlacedComp qs cross edge comps i signs = .ok v := by
    intro i hi
    cases signs with
    | true =>
      obtain ⟨sgn, _, h⟩ := C28_signed qs cross edge comps hC hO hK i _ (List.getElem?_eq_getElem hi)
      exact ⟨_, h⟩
    | false => exact ⟨_, C28_unsigned qs cross edge comps hC hO hK i _ (List.getElem?_eq_getElem hi)⟩
  have key : ∀ k i, i + k = comps.length → ∃ r, interlacedCrossings qs cross edge comps signs k i = .ok r ∧ r.length = k ∧
      ∀ j < k, ∃ v, interlacedComp qs cross edge comps (i + j) signs = .ok v ∧ r[j]? = some v := by
    intro k
    induction k with
    | zero => intro i _; exact ⟨[], rfl, rfl, fun j hj => by omega⟩
    | succ k ih =>
      intro i hik
      obtain ⟨v, hv⟩ := hone i (by omega)
      obtain ⟨r, h1, h2, h3⟩ := ih (i + 1) (by omega)
      refine ⟨v :: r, by unfold interlacedCrossings; rw [hv, ok_bind, h1, ok_bind], by simp [h2], ?_⟩
      intro j hj
      cases j with
      | zero => exact ⟨v, hv, rfl⟩
      | succ j =>
        obtain ⟨v', h4, h5⟩ := h3 j (by omega)
        refine ⟨v', ?_, by simpa using h5⟩
        rw [← h4]
        congr 1
        omega
  obtain ⟨r, h1, h2, h3⟩ := key comps.length 0 (by omega)
  exact ⟨r, h1, h2, fun i hi => by simpa using h3 i hi⟩

/-! The trefoil: all three pairs of crossings are interlaced. -/

example : Alternate (visits trefoilEdge [0, 1, 2, 3, 4, 5]) 0 1 ∧ Alternate (visits trefoilEdge [0, 1, 2, 3, 4, 5]) 0 2 ∧
    Alternate (visits trefoilEdge [0, 1, 2, 3, 4, 5]) 1 2 := by decide

theorem Interlace.trefoil_comps : CompsOf (trefoilCross .pos) trefoilEdge [⟨[0, 1, 2, 3, 4, 5], 65⟩] := by
  refine ⟨by decide, ?_⟩
  intro c hc e e' he hf
  obtain ⟨r, h1, h2⟩ := hf
  have := Consistent.slot_edge_lt (show Consistent (trefoilCross .pos) trefoilEdge by decide) h2
  rw [List.mem_singleton.mp hc]
  have h6 : trefoilEdge.length = 6 := rfl
  rw [h6] at this
  clear h2
  revert e'
  decide

example : interlacedComp insQSort (trefoilCross .pos) trefoilEdge [⟨[0, 1, 2, 3, 4, 5], 65⟩] 0 false = .ok 3 := by
  rw [C28_unsigned _ _ _ _ (by decide) (by decide) Interlace.trefoil_comps 0 _ rfl]
  decide

end Plc
