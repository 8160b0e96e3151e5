import Verif.Model.Bigon
import Verif.Proofs.Plug
import Verif.Proofs.BigonPlane

/-! The surgery of `pd_R2_bigon_addition`. -/

namespace Plc.Bigon

open Plc.Core Plc.Cmp Plc.Places Plc.Moves

variable {cross : List Cross} {edge : List Edge}

theorem edge_ext {r : Edge} {a b : Nat × Nat} (h1 : endOf true r = a) (h2 : endOf false r = b) : r = ⟨a.1, a.2, b.1, b.2⟩ := by
  subst h1 h2
  rfl

theorem getSome {edge : List Edge} {e : Nat} {r : Edge} (h : e < edge.length) (h2 : edge[e]! = r) : edge[e]? = some r := by
  rw [← h2]
  simp [h]

theorem raw_ok (hC : Consistent cross edge) {e1 e2 : Nat} (h1 : e1 < edge.length) (h2 : e2 < edge.length) (hne : e1 ≠ e2)
    {o1 o2 : Or} (ho1 : o1 ≠ .unset) (ho2 : o2 ≠ .unset) :
    ∃ cross' edge', bigonRaw cross edge e1 e2 o1 o2 = .ok (cross', edge') ∧ BigonAdded cross edge e1 e2 o1 o2 cross' edge' := by
  have g1 := List.getElem?_eq_getElem h1
  have g2 := List.getElem?_eq_getElem h2
  obtain ⟨r1, hr1⟩ : ∃ r, edge[e1] = r := ⟨_, rfl⟩
  obtain ⟨r2, hr2⟩ : ∃ r, edge[e2] = r := ⟨_, rfl⟩
  rw [hr1] at g1
  rw [hr2] at g2
  have p1 := slot_lt (hC.head _ _ g1)
  have p2 := slot_lt (hC.tail _ _ g1)
  have p3 := slot_lt (hC.head _ _ g2)
  have p4 := slot_lt (hC.tail _ _ g2)
  have d1 := hC.ends_ne _ _ g1
  have d2 := hC.ends_ne _ _ g2
  have dd : ∀ {a b : Nat × Nat}, slot cross a.1 a.2 = some e1 → slot cross b.1 b.2 = some e2 → a ≠ b := by
    rintro a b ha hb rfl
    rw [ha] at hb
    exact hne (Option.some.inj hb)
  have d3 := dd (a := (r1.head, r1.headpos)) (b := (r2.head, r2.headpos)) (hC.head _ _ g1) (hC.head _ _ g2)
  have d4 := dd (a := (r1.head, r1.headpos)) (b := (r2.tail, r2.tailpos)) (hC.head _ _ g1) (hC.tail _ _ g2)
  have d5 := dd (a := (r1.tail, r1.tailpos)) (b := (r2.head, r2.headpos)) (hC.tail _ _ g1) (hC.head _ _ g2)
  have d6 := dd (a := (r1.tail, r1.tailpos)) (b := (r2.tail, r2.tailpos)) (hC.tail _ _ g1) (hC.tail _ _ g2)
  rw [ne_eq, Prod.mk.injEq] at d1 d2 d3 d4 d5 d6
  -- the common part
  have go : ∀ (W V : List Plug), bigonNew cross.length (cross.length + 1) e1 edge.length (edge.length + 1) e2 (edge.length + 2)
      (edge.length + 3) o1 o2 = .ok W → W ++ [⟨true, edge.length + 1, r1.head, r1.headpos⟩, ⟨false, edge.length, r1.tail, r1.tailpos⟩,
        ⟨true, edge.length + 3, r2.head, r2.headpos⟩, ⟨false, edge.length + 2, r2.tail, r2.tailpos⟩] = V →
      (∀ w ∈ W, w.c < cross.length + 2 ∧ w.k < 4 ∧ cross.length ≤ w.c) →
      (W.map (fun w => (w.c, w.k))).Nodup →
      (W.map (fun w => (w.head, w.e))).Perm [(true, edge.length), (false, edge.length + 1), (true, edge.length + 2),
        (false, edge.length + 3), (true, e1), (false, e1), (true, e2), (false, e2)] →
      ∃ cross' edge', bigonRaw cross edge e1 e2 o1 o2 = .ok (cross', edge') ∧ Consistent cross' edge' ∧
        cross'.length = cross.length + 2 ∧ edge'.length = edge.length + 4 ∧
        (∀ (c : Nat) (x : Cross), cross[c]? = some x → ∃ x', cross'[c]? = some x' ∧ x'.sign = x.sign) ∧
        (∀ (c : Nat) (x : Cross), cross.length ≤ c → cross'[c]? = some x → x.sign = .unset) ∧
        (∀ (e : Nat) (r : Edge), edge[e]? = some r → e ≠ e1 → e ≠ e2 → edge'[e]? = some r) ∧
        ∀ w ∈ V, endOf w.head edge'[w.e]! = (w.c, w.k) := by
    intro W V hW hV w1 w2 w3
    have hend : ∀ b e, (b, e) ∈ W.map (fun w => (w.head, w.e)) ↔ e = e1 ∨ e = e2 ∨ (b = true ∧ (e = edge.length ∨ e = edge.length + 2)) ∨
        (b = false ∧ (e = edge.length + 1 ∨ e = edge.length + 3)) := by
      intro b e
      rw [w3.mem_iff]
      cases b <;> simp <;> omega
    have b1 : ∀ w ∈ V, w.e < edge.length + 4 ∧ w.c < cross.length + 2 ∧ w.k < 4 ∧ (w.e = e1 ∨ w.e = e2 ∨ edge.length ≤ w.e) ∧
          (w.c < cross.length → (w.c = r1.head ∧ w.k = r1.headpos) ∨ (w.c = r1.tail ∧ w.k = r1.tailpos) ∨
            (w.c = r2.head ∧ w.k = r2.headpos) ∨ (w.c = r2.tail ∧ w.k = r2.tailpos)) := by
      intro w hw
      rw [← hV, List.mem_append] at hw
      rcases hw with hw | hw
      · have q1 := w1 w hw
        have q2 := (hend w.head w.e).mp (List.mem_map.mpr ⟨w, hw, rfl⟩)
        omega
      · simp only [List.mem_cons, List.not_mem_nil, or_false] at hw
        rcases hw with rfl | rfl | rfl | rfl <;> simp <;> omega
    have b2 : ∀ b e, (e = e1 ∨ e = e2 ∨ (edge.length ≤ e ∧ e < edge.length + 4)) → ∃ w ∈ V, (w.head, w.e) = (b, e) := by
      intro b e he
      by_cases hm : (b, e) ∈ W.map (fun w => (w.head, w.e))
      · obtain ⟨w, q1, q2⟩ := List.mem_map.mp hm
        exact ⟨w, by rw [← hV]; exact List.mem_append_left _ q1, q2⟩
      · rw [hend] at hm
        rw [← hV]
        cases b <;> simp only [Bool.true_eq_false, Bool.false_eq_true, false_and, true_and, false_or, or_false] at hm
        · have : e = edge.length ∨ e = edge.length + 2 := by omega
          rcases this with rfl | rfl
          · exact ⟨⟨false, edge.length, r1.tail, r1.tailpos⟩, by simp, rfl⟩
          · exact ⟨⟨false, edge.length + 2, r2.tail, r2.tailpos⟩, by simp, rfl⟩
        · have : e = edge.length + 1 ∨ e = edge.length + 3 := by omega
          rcases this with rfl | rfl
          · exact ⟨⟨true, edge.length + 1, r1.head, r1.headpos⟩, by simp, rfl⟩
          · exact ⟨⟨true, edge.length + 3, r2.head, r2.headpos⟩, by simp, rfl⟩
    have b3 : (V.map (fun w => (w.c, w.k))).Nodup := by
      rw [← hV, List.map_append, List.nodup_append]
      refine ⟨w2, ?_, ?_⟩
      · simp only [List.map_cons, List.map_nil, List.nodup_cons, List.mem_cons, List.not_mem_nil, Prod.mk.injEq, or_false,
          not_false_eq_true, List.nodup_nil, and_true]
        clear w1 w2 w3 hend b1 b2
        and_intros <;> omega
      · intro a ha b hb
        obtain ⟨w, q1, rfl⟩ := List.mem_map.mp ha
        have := w1 w q1
        simp only [List.map_cons, List.map_nil, List.mem_cons, List.not_mem_nil, or_false] at hb
        rw [ne_eq]
        rcases hb with rfl | rfl | rfl | rfl <;> rw [Prod.mk.injEq] <;> omega
    have b4 : (V.map (fun w => (w.head, w.e))).Nodup := by
      rw [← hV, List.map_append, List.nodup_append]
      refine ⟨w3.nodup_iff.mpr ?_, ?_, ?_⟩
      · simp
        omega
      · simp
      · rintro ⟨b, e⟩ ha b' hb rfl
        rw [hend] at ha
        simp only [List.map_cons, List.map_nil, List.mem_cons, List.not_mem_nil, or_false, Prod.mk.injEq] at hb
        rcases hb with ⟨rfl, rfl⟩ | ⟨rfl, rfl⟩ | ⟨rfl, rfl⟩ | ⟨rfl, rfl⟩ <;> simp at ha <;> omega
    obtain ⟨cross', edge', q1, q2⟩ := plugs_ok V (cross ++ [blankCross, blankCross]) (edge ++ [zeroEdge, zeroEdge, zeroEdge, zeroEdge])
      (by
        intro w hw
        obtain ⟨w1, w2, w3, -⟩ := b1 w hw
        simp only [List.length_append, List.length_cons, List.length_nil]
        omega) b3 b4
    have l1 := q2.len
    have l2 := q2.elen
    simp only [List.length_append, List.length_cons, List.length_nil] at l1 l2
    have rest : ∀ b e, e < edge.length + 4 → (∀ w ∈ V, (w.head, w.e) ≠ (b, e)) → e < edge.length ∧ e ≠ e1 ∧ e ≠ e2 := by
      intro b e he hw
      by_contra hcon
      obtain ⟨w, w1, w2⟩ := b2 b e (by omega)
      exact hw w w1 w2
    have getl : ∀ e, e < edge.length → (edge ++ [zeroEdge, zeroEdge, zeroEdge, zeroEdge])[e]! = edge[e]! := by
      intro e he
      rw [List.getElem!_eq_getElem?_getD, List.getElem!_eq_getElem?_getD, List.getElem?_append_left he]
    have slotl : ∀ c k e, slot cross c k = some e → slot (cross ++ [blankCross, blankCross]) c k = some e := by
      intro c k e hs
      have := slot_lt hs
      unfold slot at hs ⊢
      rw [List.getElem?_append_left this.1]
      exact hs
    refine ⟨cross', edge', ?_, ?_, l1, l2, ?_, ?_, ?_, q2.end_⟩
    · unfold bigonRaw
      simp only
      rw [rd_eq_ok.mpr g1, ok_bind, rd_eq_ok.mpr g2, ok_bind, hW, ok_bind, hV, q1]
    · refine q2.consistent b3 ?_ ?_
      · simp only [List.length_append, List.length_cons, List.length_nil, hC.count]
        omega
      · intro b e he hw
        simp only [List.length_append, List.length_cons, List.length_nil] at he
        obtain ⟨a1, a2, a3⟩ := rest b e he hw
        rw [getl e a1]
        have hre := List.getElem?_eq_getElem a1
        have e0 : slot cross (endOf b edge[e]!).1 (endOf b edge[e]!).2 = some e := by
          rw [(Planar.getBang hre).1]
          cases b
          · exact hC.tail e _ hre
          · exact hC.head e _ hre
        refine ⟨slotl _ _ _ e0, ?_, hd_ne_tl hC a1⟩
        intro v hv heq
        have hlt := (slot_lt e0).1
        rw [← heq] at hlt e0
        simp only at hlt e0
        rcases (b1 v hv).2.2.2.2 hlt with ⟨f1, f2⟩ | ⟨f1, f2⟩ | ⟨f1, f2⟩ | ⟨f1, f2⟩ <;> rw [f1, f2] at e0
        · exact a2 (Option.some.inj (e0.symm.trans (hC.head _ _ g1)))
        · exact a2 (Option.some.inj (e0.symm.trans (hC.tail _ _ g1)))
        · exact a3 (Option.some.inj (e0.symm.trans (hC.head _ _ g2)))
        · exact a3 (Option.some.inj (e0.symm.trans (hC.tail _ _ g2)))
    · intro c x hx
      exact q2.signs c x (by rw [List.getElem?_append_left (List.getElem?_eq_some_iff.mp hx).1]; exact hx)
    · intro c x hc hx
      have hlt := (List.getElem?_eq_some_iff.mp hx).1
      obtain ⟨y, y1, y2⟩ := q2.signs c blankCross (by
        rw [List.getElem?_append_right hc]
        have : c - cross.length = 0 ∨ c - cross.length = 1 := by omega
        rcases this with h | h <;> rw [h] <;> rfl)
      rw [hx] at y1
      cases y1
      exact y2
    · intro e r hr n1 n2
      obtain ⟨e5, e6⟩ := Planar.getBang hr
      have hno : ∀ b, ∀ w ∈ V, (w.head, w.e) ≠ (b, e) := by
        intro b w hw heq
        rw [Prod.mk.injEq] at heq
        have := (b1 w hw).2.2.2.1
        omega
      refine getSome (by omega) ?_
      rw [edge_ext (q2.end_other true e (hno true)) (q2.end_other false e (hno false)), getl e e6, e5]
      rfl
  cases o1 <;> cases o2 <;> first | exact absurd rfl ho1 | exact absurd rfl ho2 | skip
  all_goals
    obtain ⟨cross', edge', q1, q2, q3, q4, q5, q6, q7, q8⟩ := go _ _ rfl rfl (by simp) (by simp) (by
      rw [List.perm_iff_count]
      rintro ⟨b, e⟩
      simp only [List.map_cons, List.map_nil, List.count_cons, List.count_nil]
      omega)
    simp only [List.cons_append, List.nil_append, List.forall_mem_cons, List.not_mem_nil, false_imp_iff, implies_true, and_true] at q8
    obtain ⟨u1, u2, u3, u4, u5, u6, u7, u8, u9, u10, u11, u12⟩ := q8
    refine ⟨cross', edge', q1, q3, q4, q2, q5, q6, q7, ?_⟩
  · exact ⟨r1, r2, 0, 3, 1, _, _, rfl, rfl, rfl, g1, g2, getSome (by omega) (edge_ext u1 u10), getSome (by omega) (edge_ext u8 u2),
      getSome (by omega) (edge_ext u9 u7), fun _ => ⟨getSome (by omega) (edge_ext u6 u12), getSome (by omega) (edge_ext u3 u5),
        getSome (by omega) (edge_ext u11 u4)⟩, fun h => absurd rfl h⟩
  · exact ⟨r1, r2, 0, 3, 1, _, _, rfl, rfl, rfl, g1, g2, getSome (by omega) (edge_ext u1 u10), getSome (by omega) (edge_ext u8 u2),
      getSome (by omega) (edge_ext u9 u7), (fun h => nomatch h), fun _ => ⟨getSome (by omega) (edge_ext u4 u12),
        getSome (by omega) (edge_ext u5 u3), getSome (by omega) (edge_ext u11 u6)⟩⟩
  · exact ⟨r1, r2, 0, 1, 3, _, _, rfl, rfl, rfl, g1, g2, getSome (by omega) (edge_ext u1 u10), getSome (by omega) (edge_ext u7 u2),
      getSome (by omega) (edge_ext u9 u8), (fun h => nomatch h), fun _ => ⟨getSome (by omega) (edge_ext u3 u12),
        getSome (by omega) (edge_ext u5 u4), getSome (by omega) (edge_ext u11 u6)⟩⟩
  · exact ⟨r1, r2, 0, 1, 3, _, _, rfl, rfl, rfl, g1, g2, getSome (by omega) (edge_ext u1 u10), getSome (by omega) (edge_ext u7 u2),
      getSome (by omega) (edge_ext u9 u8), fun _ => ⟨getSome (by omega) (edge_ext u6 u12), getSome (by omega) (edge_ext u4 u5),
        getSome (by omega) (edge_ext u11 u3)⟩, fun h => absurd rfl h⟩

end Plc.Bigon
