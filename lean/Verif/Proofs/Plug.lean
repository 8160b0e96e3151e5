import Verif.Model.Plug
import Verif.Proofs.Moves
import Verif.Proofs.LoopPlane

/-! Putting ends of edges into places. -/

namespace Plc.Moves

open Plc.Core Plc.Cmp Plc.Places

/-- Where the head or the tail is. -/
def endOf (h : Bool) (r : Edge) : Nat × Nat := if h then hd r else tl r

/-- What a list of plugs does when no place and no end occurs twice in it. -/
structure Plugged (W : List Plug) (cross : List Cross) (edge : List Edge) (cross' : List Cross) (edge' : List Edge) : Prop where
  len : cross'.length = cross.length
  elen : edge'.length = edge.length
  signs : ∀ (c : Nat) (x : Cross), cross[c]? = some x → ∃ x', cross'[c]? = some x' ∧ x'.sign = x.sign
  at_ : ∀ w ∈ W, slot cross' w.c w.k = some w.e
  end_ : ∀ w ∈ W, endOf w.head edge'[w.e]! = (w.c, w.k)
  slot_other : ∀ c k, (∀ w ∈ W, (w.c, w.k) ≠ (c, k)) → slot cross' c k = slot cross c k
  end_other : ∀ h e, (∀ w ∈ W, (w.head, w.e) ≠ (h, e)) → endOf h edge'[e]! = endOf h edge[e]!

theorem plugs_ok : ∀ (W : List Plug) (cross : List Cross) (edge : List Edge),
    (∀ w ∈ W, w.e < edge.length ∧ w.c < cross.length ∧ w.k < 4) → (W.map (fun w => (w.c, w.k))).Nodup →
    (W.map (fun w => (w.head, w.e))).Nodup →
    ∃ cross' edge', plugs W (cross, edge) = .ok (cross', edge') ∧ Plugged W cross edge cross' edge' := by
  intro W
  induction W with
  | nil =>
    intro cross edge _ _ _
    exact ⟨cross, edge, rfl, rfl, rfl, fun c x h => ⟨x, h, rfl⟩, by simp, by simp, fun _ _ _ => rfl, fun _ _ _ => rfl⟩
  | cons w W ih =>
    intro cross edge hb hp he
    obtain ⟨h1, h2, h3⟩ := hb w (by simp)
    obtain ⟨c1, s1, s2, s3⟩ := setSlot_ok (cross := cross) h2 h3 w.e
    rw [List.map_cons, List.nodup_cons] at hp he
    have hw : plug (cross, edge) w = .ok (c1, edge.set w.e (if w.head then { edge[w.e] with head := w.c, headpos := w.k }
        else { edge[w.e] with tail := w.c, tailpos := w.k })) := by
      unfold plug
      simp only
      rw [s1, ok_bind, rd_lt h1, ok_bind, wr_lt h1, ok_bind]
    generalize hE : edge.set w.e (if w.head then { edge[w.e] with head := w.c, headpos := w.k }
        else { edge[w.e] with tail := w.c, tailpos := w.k }) = E1 at hw
    have eE : E1.length = edge.length := by rw [← hE]; simp
    have s4 : ∀ c k, slot c1 c k = if c = w.c ∧ k = w.k then some w.e else slot cross c k := by
      intro c k
      unfold slot
      by_cases hk : k < 4
      · rw [if_pos hk, if_pos hk]
        by_cases hc : c < cross.length
        · obtain ⟨x', x1, x2, x3⟩ := s3 c _ (List.getElem?_eq_getElem hc)
          rw [x1, List.getElem?_eq_getElem hc]
          simp only [Option.map_some]
          rw [x3, Nat.mod_eq_of_lt hk]
          split <;> rfl
        · rw [List.getElem?_eq_none (by omega), List.getElem?_eq_none (by omega), if_neg (by omega)]
      · rw [if_neg hk, if_neg hk, if_neg (by omega)]
    have s5 : endOf w.head E1[w.e]! = (w.c, w.k) := by
      rw [← hE, (Planar.getBang (List.getElem?_set_self h1)).1]
      unfold endOf hd tl
      cases w.head <;> simp
    have s6 : ∀ h e, (w.head, w.e) ≠ (h, e) → endOf h E1[e]! = endOf h edge[e]! := by
      intro h e hne
      by_cases hee : w.e = e
      · subst hee
        rw [← hE, (Planar.getBang (List.getElem?_set_self h1)).1, (Planar.getBang (List.getElem?_eq_getElem h1)).1]
        unfold endOf hd tl
        cases hh : w.head <;> cases h <;> simp_all
      · have : E1[e]? = edge[e]? := by rw [← hE, List.getElem?_set_ne hee]
        rw [List.getElem!_eq_getElem?_getD, List.getElem!_eq_getElem?_getD, this]
    obtain ⟨cross', edge', a1, a2⟩ := ih c1 E1 (by
      intro v hv
      have := hb v (by simp [hv])
      rw [s2, eE]
      exact this) hp.2 he.2
    refine ⟨cross', edge', ?_, by rw [a2.len, s2], by rw [a2.elen, eE], ?_, ?_, ?_, ?_, ?_⟩
    · rw [plugs, hw, ok_bind, a1]
    · intro c x hx
      obtain ⟨x1, g1, g2, -⟩ := s3 c x hx
      obtain ⟨x2, g3, g4⟩ := a2.signs c x1 g1
      exact ⟨x2, g3, by rw [g4, g2]⟩
    · intro v hv
      rcases List.mem_cons.mp hv with rfl | hv
      · rw [a2.slot_other _ _ (fun u hu h => hp.1 (List.mem_map.mpr ⟨u, hu, h⟩)), s4, if_pos ⟨rfl, rfl⟩]
      · exact a2.at_ v hv
    · intro v hv
      rcases List.mem_cons.mp hv with rfl | hv
      · rw [a2.end_other _ _ (fun u hu h => he.1 (List.mem_map.mpr ⟨u, hu, h⟩)), s5]
      · exact a2.end_ v hv
    · intro c k hck
      rw [a2.slot_other _ _ (fun u hu => hck u (by simp [hu])), s4, if_neg]
      rintro ⟨rfl, rfl⟩
      exact hck w (by simp) rfl
    · intro h e hhe
      rw [a2.end_other _ _ (fun u hu => hhe u (by simp [hu])), s6 _ _ (hhe w (by simp))]

namespace Plugged

variable {W : List Plug} {cross cross' : List Cross} {edge edge' : List Edge}

/-- If the places that are filled are those from which the plugged ends were taken, or new ones, then the result is consistent. -/
theorem consistent (h : Plugged W cross edge cross' edge') (hp : (W.map (fun w => (w.c, w.k))).Nodup)
    (hcount : edge.length = 2 * cross.length)
    (hold : ∀ b e, e < edge.length → (∀ w ∈ W, (w.head, w.e) ≠ (b, e)) →
      slot cross (endOf b edge[e]!).1 (endOf b edge[e]!).2 = some e ∧ (∀ w ∈ W, (w.c, w.k) ≠ endOf b edge[e]!) ∧
      hd edge[e]! ≠ tl edge[e]!) : Consistent cross' edge' := by
  have ends : ∀ b e, e < edge.length → (∃ w ∈ W, w.head = b ∧ w.e = e ∧ endOf b edge'[e]! = (w.c, w.k)) ∨
      ((∀ w ∈ W, (w.head, w.e) ≠ (b, e)) ∧ endOf b edge'[e]! = endOf b edge[e]!) := by
    intro b e he
    by_cases hw : ∃ w ∈ W, (w.head, w.e) = (b, e)
    · obtain ⟨w, w1, w2⟩ := hw
      rw [Prod.mk.injEq] at w2
      obtain ⟨rfl, rfl⟩ := w2
      exact .inl ⟨w, w1, rfl, rfl, h.end_ w w1⟩
    · push Not at hw
      exact .inr ⟨hw, h.end_other _ _ hw⟩
  have key : ∀ b e, e < edge.length → slot cross' (endOf b edge'[e]!).1 (endOf b edge'[e]!).2 = some e := by
    intro b e he
    rcases ends b e he with ⟨w, w1, rfl, rfl, w2⟩ | ⟨w1, w2⟩
    · rw [w2]
      exact h.at_ w w1
    · rw [w2, h.slot_other (endOf b edge[e]!).1 (endOf b edge[e]!).2 (fun w hw => (hold b e he w1).2.1 w hw)]
      exact (hold b e he w1).1
  have lt : ∀ {e : Nat} {r : Edge}, edge'[e]? = some r → e < edge.length ∧ edge'[e]! = r := by
    intro e r hr
    obtain ⟨a, b⟩ := Planar.getBang hr
    rw [h.elen] at b
    exact ⟨b, a⟩
  have inj : ∀ u ∈ W, ∀ v ∈ W, (u.c, u.k) = (v.c, v.k) → u = v := fun u hu v hv e =>
    List.inj_on_of_nodup_map hp hu hv e
  refine ⟨by rw [h.elen, h.len, hcount], ?_, ?_, ?_⟩
  · intro e r hr
    obtain ⟨l, rfl⟩ := lt hr
    exact key true e l
  · intro e r hr
    obtain ⟨l, rfl⟩ := lt hr
    exact key false e l
  · intro e r hr
    obtain ⟨l, rfl⟩ := lt hr
    show endOf true edge'[e]! ≠ endOf false edge'[e]!
    rcases ends true e l with ⟨w, w1, w2, w3, w4⟩ | ⟨w1, w2⟩ <;> rcases ends false e l with ⟨v, v1, v2, v3, v4⟩ | ⟨v1, v2⟩
    · rw [w4, v4]
      intro hh
      rw [inj w w1 v v1 hh, v2] at w2
      cases w2
    · rw [w4, v2]
      exact (hold false e l v1).2.1 w w1
    · rw [v4, w2]
      exact fun hh => (hold true e l w1).2.1 v v1 hh.symm
    · rw [w2, v2]
      exact (hold true e l w1).2.2

end Plugged

end Plc.Moves
