import Verif.Proofs.Erased

/-! Components when strands are pulled off crossings. -/

namespace Plc

open Plc.Core Plc.Cmp Plc.Buffers List Plc.Comps Plc.Moves

/-- `c` is reached from `a`, and all that comes after `a` up to `c` fails `p`. -/
inductive Run (R : Nat → Nat → Prop) (p : Nat → Prop) (a : Nat) : Nat → Prop
  | refl : Run R p a a
  | step {c d : Nat} : Run R p a c → R c d → ¬ p d → Run R p a d

namespace Run

variable {R : Nat → Nat → Prop} {p : Nat → Prop} {a b c : Nat}

theorem head (h : Run R p a b) : a = b ∨ ∃ d, R a d ∧ ¬ p d := by
  induction h with
  | refl => exact .inl rfl
  | step h1 h2 h3 ih =>
    rcases ih with rfl | ih
    · exact .inr ⟨_, h2, h3⟩
    · exact .inr ih

theorem total (hdet : ∀ x y z, R x y → R x z → y = z) (h : Run R p a b) (h' : Run R p a c) :
    Run R p b c ∨ Run R p c b := by
  induction h with
  | refl => exact .inl h'
  | @step x y h1 h2 h3 ih =>
    rcases ih with ih | ih
    · -- from x on
      have : ∀ z, Run R p x z → x = z ∨ Run R p y z := by
        intro z hz
        induction hz with
        | refl => exact .inl rfl
        | @step u v k1 k2 k3 ihz =>
          rcases ihz with rfl | ihz
          · rw [hdet _ _ _ k2 h2]; exact .inr .refl
          · exact .inr (.step ihz k2 k3)
      rcases this _ ih with rfl | hz
      · exact .inr (.step .refl h2 h3)
      · exact .inl hz
    · exact .inr (.step ih h2 h3)

/-- Runs end in the same place, if both leave next. -/
theorem unique (hdet : ∀ x y z, R x y → R x z → y = z) (h : Run R p a b) (h' : Run R p a c)
    (hb : ∀ d, R b d → p d) (hc : ∀ d, R c d → p d) : b = c := by
  rcases h.total hdet h' with k | k
  · rcases k.head with k | ⟨d, k1, k2⟩
    · exact k
    · exact absurd (hb d k1) k2
  · rcases k.head with k | ⟨d, k1, k2⟩
    · exact k.symm
    · exact absurd (hc d k1) k2

end Run

/-- Along a chain, the next entry with `p`. -/
theorem chain_next {R : Nat → Nat → Prop} {p : Nat → Bool} {a0 : Nat} : ∀ (w : List Nat) (a : Nat), Run R (fun x => p x = true) a0 a →
    List.IsChain R (a :: w) → ∀ (b : Nat) (t : List Nat), w.filter p = b :: t → ∃ c, Run R (fun x => p x = true) a0 c ∧ R c b
  | [], _, _, _, b, t, h => by simp at h
  | x :: w, a, hr, hc, b, t, h => by
    rw [List.isChain_cons_cons] at hc
    by_cases hx : p x = true
    · rw [List.filter_cons_of_pos hx] at h
      cases h
      exact ⟨a, hr, hc.1⟩
    · rw [List.filter_cons_of_neg hx] at h
      exact chain_next w x (.step hr hc.1 hx) hc.2 b t h

namespace Cyclic

variable {R S : Nat → Nat → Prop} {l : List Nat}

theorem chain (h : Cyclic R l) {s t : List Nat} {a : Nat} (hl : l = s ++ a :: t) :
    List.IsChain R (a :: (t ++ s ++ [a])) := by
  have hrot : l ~r a :: (t ++ s) := by
    rw [hl]
    refine List.isRotated_append.trans ?_
    rw [List.cons_append]
  have hc := h.of_isRotated hrot
  rw [List.isChain_iff_getElem]
  intro i hi
  simp only [List.length_cons, List.length_append, List.length_nil] at hi
  have hi1 : i < (a :: (t ++ s)).length := by simp; omega
  obtain ⟨e', k1, k2⟩ := hc i _ (List.getElem?_eq_getElem hi1)
  have e1 : (a :: (t ++ s ++ [a]))[i]'(by simp; omega) = (a :: (t ++ s))[i] := by
    have : a :: (t ++ s ++ [a]) = (a :: (t ++ s)) ++ [a] := by simp
    rw [List.getElem_of_eq this, List.getElem_append_left hi1]
  have e2 : (a :: (t ++ s ++ [a]))[i + 1]'(by simp; omega) = e' := by
    have : a :: (t ++ s ++ [a]) = (a :: (t ++ s)) ++ [a] := by simp
    rw [List.getElem_of_eq this]
    by_cases hlast : i + 1 < (a :: (t ++ s)).length
    · rw [List.getElem_append_left hlast]
      rw [Nat.mod_eq_of_lt hlast, List.getElem?_eq_getElem hlast] at k1
      exact Option.some.inj k1
    · have hl' : i + 1 = (a :: (t ++ s)).length := by omega
      rw [hl', Nat.mod_self] at k1
      simp only [List.getElem?_cons_zero, Option.some.injEq] at k1
      rw [List.getElem_append_right (by omega)]
      simp [k1]
  rw [e1, e2]
  exact k2

/-- Leaving out entries. -/
theorem filter (h : Cyclic R l) (p : Nat → Bool)
    (hs : ∀ a b c, a ∈ l → b ∈ l → p a = true → p b = true → Run R (fun x => p x = true) a c → R c b → S a b) :
    Cyclic S (l.filter p) := by
  intro j e he
  have hj := (List.getElem?_eq_some_iff.mp he).1
  obtain ⟨_, heq⟩ := List.getElem?_eq_some_iff.mp he
  have hsplit : l.filter p = (l.filter p).take j ++ e :: (l.filter p).drop (j + 1) := by
    rw [← heq, List.getElem_cons_drop, List.take_append_drop]
  obtain ⟨l1, l2, m1, m2, m3⟩ := List.filter_eq_append_iff.mp hsplit
  obtain ⟨l3, l4, n1, n2, n3, n4⟩ := List.filter_eq_cons_iff.mp m3
  have hl : l = (l1 ++ l3) ++ e :: l4 := by rw [m1, n1, List.append_assoc]
  have hch := h.chain hl
  have hf3 : l3.filter p = [] := by
    rw [List.filter_eq_nil_iff]
    exact n2
  have hw : (l4 ++ (l1 ++ l3) ++ [e]).filter p = (l.filter p).drop (j + 1) ++ ((l.filter p).take j ++ [e]) := by
    rw [List.filter_append, List.filter_append, List.filter_append, m2, n4, hf3, List.append_nil, List.filter_cons_of_pos n3,
      List.filter_nil, List.append_assoc]
  obtain ⟨b, t, hbt⟩ : ∃ b t, (l.filter p).drop (j + 1) ++ ((l.filter p).take j ++ [e]) = b :: t := by
    cases h0 : (l.filter p).drop (j + 1) ++ ((l.filter p).take j ++ [e]) with
    | nil => simp at h0
    | cons b t => exact ⟨b, t, rfl⟩
  rw [hbt] at hw
  obtain ⟨c, c1, c2⟩ := chain_next _ e .refl hch b t hw
  have hb : (l.filter p)[(j + 1) % (l.filter p).length]? = some b := by
    by_cases hlast : j + 1 < (l.filter p).length
    · rw [Nat.mod_eq_of_lt hlast]
      rw [List.drop_eq_getElem_cons hlast, List.cons_append] at hbt
      rw [List.getElem?_eq_getElem hlast, (List.cons.inj hbt).1]
    · have : (l.filter p).length = j + 1 := by omega
      rw [this, Nat.mod_self]
      rw [List.drop_eq_nil_of_le (by omega), List.nil_append] at hbt
      rw [show (l.filter p)[0]? = (((l.filter p).take j) ++ [e])[0]? by
        conv_lhs => rw [hsplit, List.drop_eq_nil_of_le (by omega)]]
      rw [hbt]
      rfl
  have hbm : b ∈ l.filter p := List.mem_of_getElem? hb
  rw [List.mem_filter] at hbm
  exact ⟨b, hb, hs e b c (List.mem_of_mem_filter (List.mem_of_getElem? he)) hbm.1 n3 hbm.2 c1 c2⟩

end Cyclic

theorem follows_tail {cross : List Cross} {edge : List Edge} (hC : Consistent cross edge) (hO : Oriented cross edge) {a b : Nat}
    (h : Follows cross edge a b) {r : Edge} (hr : edge[a]? = some r) : ∃ s, edge[b]? = some s ∧ s.tail = r.head := by
  obtain ⟨r', h1, h2⟩ := h
  rw [hr] at h1
  cases h1
  obtain ⟨g, s, a1, a2, a3⟩ := hO.through_head a r hr
  have := hC.tail g s a1
  rw [a2, a3, h2] at this
  cases this
  exact ⟨s, a1, a2⟩

namespace Bypass

variable {cross : List Cross} {edge : List Edge} {X G : List Nat} {W : List (Nat × Nat)}

/-- The strands of `W` run through the edges of `G`. -/
def Thru (cross : List Cross) (edge : List Edge) (G : List Nat) (W : List (Nat × Nat)) : Prop :=
  ∀ p ∈ W, Run (Follows cross edge) (fun e => e ∉ G) p.1 p.2

theorem follows_last (h : Bypass edge X G W) (hT : Thru cross edge G W) (hC : Consistent cross edge) (hO : Oriented cross edge)
    {a b c : Nat} (ha : a < edge.length) (hk : a ∉ G) (hb : b ∉ G) (hr : Run (Follows cross edge) (fun e => e ∉ G) a c)
    (hf : Follows cross edge c b) : Follows cross edge (lastOf W a) b := by
  -- where the run ends
  have hlast : ∀ d, d < edge.length → (∃ r, edge[d]? = some r ∧ r.head ∉ X) → ∀ e, Follows cross edge d e → e ∉ G := by
    intro d hd ⟨r, r1, r2⟩ e he
    obtain ⟨s, s1, s2⟩ := follows_tail hC hO he r1
    intro hg
    exact r2 (by rw [← s2]; exact (h.tail e s s1).mpr hg)
  have hrunlast : Run (Follows cross edge) (fun e => e ∉ G) a (lastOf W a) := by
    by_cases hm : a ∈ W.map (·.1)
    · obtain ⟨p, hp, rfl⟩ := List.mem_map.mp hm
      rw [lastOf_mem h.fst (show (p.1, p.2) ∈ W from hp)]
      exact hT p hp
    · rw [lastOf_not hm]
      exact .refl
  have hll := h.last_lt ha (W := W)
  have g := List.getElem?_eq_getElem hll
  have hcl : ∀ e, Follows cross edge (lastOf W a) e → e ∉ G := hlast _ hll ⟨_, g, h.last_head hk g⟩
  have := Run.unique (R := Follows cross edge) (p := fun e => e ∉ G) (fun _ _ _ h1 h2 => h1.unique h2) hrunlast hr hcl (fun d hd => by rw [hd.unique hf]; exact hb)
  rw [this]
  exact hf

end Bypass

/-- Components after the surgery. -/
theorem Erased.comps_after {cross : List Cross} {edge : List Edge} {comps : List Comp} {X G : List Nat} {W : List (Nat × Nat)}
    (hC : Consistent cross edge) (hO : Oriented cross edge) (B : Bypass edge X G W) (hT : Bypass.Thru cross edge G W)
    (hsmall : edge.length < 2 ^ 31) (hmem : ∀ c ∈ comps, ∀ e ∈ c.edge, e < edge.length)
    (hcyc : ∀ c ∈ comps, Cyclic (Follows cross edge) c.edge)
    (hnd : (comps.flatMap (·.edge)).Nodup) (hall : ∀ e, e < edge.length → e ∉ G → ∃ c ∈ comps, e ∈ c.edge)
    {cross1 : List Cross} {edge1 : List Edge} {eidx : List Nat} {τ σ ρ ν : Nat → Nat}
    (L : Erased cross edge X G W cross1 edge1 τ σ ρ) (T : Survive edge.length G edge1.length τ ν)
    (hle : edge1.length ≤ edge.length)
    (hidx : ∀ i, i < edge.length → eidx[i]? = some (if i ∈ G then UNSET_IDX else ν i)) :
    (∀ c ∈ comps, newEdges eidx c.edge = (c.edge.filter (fun e => decide (e ∉ G))).map ν) ∧
    (comps.flatMap (fun c => newEdges eidx c.edge)).Perm (range edge1.length) ∧
    (∀ c ∈ comps, Cyclic (Follows cross1 edge1) (newEdges eidx c.edge)) := by
  have hnew : ∀ l : List Nat, (∀ e ∈ l, e < edge.length) →
      newEdges eidx l = (l.filter (fun e => decide (e ∉ G))).map ν := by
    intro l hl
    unfold newEdges
    apply filter_filterMap_map
    · intro a ha
      rw [hidx a (hl a ha)]
      by_cases hp : a ∈ G <;> simp [hp]
    · intro a ha hp
      have := (T.down a (hl a ha) (by simpa using hp)).1
      unfold UNSET_IDX
      omega
  refine ⟨fun c hc => hnew _ (hmem c hc), ?_, ?_⟩
  · have e : (comps.flatMap (fun c => newEdges eidx c.edge)) =
        ((comps.flatMap (·.edge)).filter (fun e => decide (e ∉ G))).map ν := by
      rw [List.filter_flatMap, List.map_flatMap]
      apply List.flatMap_congr
      intro c hc
      exact hnew _ (hmem c hc)
    rw [e]
    have hlt : ∀ x ∈ (comps.flatMap (·.edge)).filter (fun e => decide (e ∉ G)), x < edge.length ∧ x ∉ G := by
      intro x hx
      rw [List.mem_filter, List.mem_flatMap] at hx
      obtain ⟨⟨c, c1, c2⟩, hx⟩ := hx
      exact ⟨hmem c c1 x c2, by simpa using hx⟩
    rw [List.perm_ext_iff_of_nodup _ List.nodup_range]
    · intro a
      rw [List.mem_map, List.mem_range]
      constructor
      · rintro ⟨b, hb, rfl⟩
        have := hlt b hb
        exact (T.down b this.1 this.2).1
      · intro ha
        refine ⟨τ a, ?_, T.left a ha⟩
        have := T.up a ha
        rw [List.mem_filter, List.mem_flatMap]
        obtain ⟨c, c1, c2⟩ := hall _ this.1 this.2
        exact ⟨⟨c, c1, c2⟩, by simpa using this.2⟩
    · refine List.Nodup.map_on ?_ (hnd.filter _)
      intro x hx y hy hxy
      have hx' := hlt x hx
      have hy' := hlt y hy
      have a := (T.down x hx'.1 hx'.2).2
      have b := (T.down y hy'.1 hy'.2).2
      rw [← a, hxy, b]
  · intro c hc
    rw [hnew _ (hmem c hc)]
    apply Cyclic.map
    refine (hcyc c hc).filter _ ?_
    intro a b c' ha hb pa pb hr hf
    have na : a ∉ G := by simpa using pa
    have nb : b ∉ G := by simpa using pb
    have la := hmem c hc a ha
    have lb := hmem c hc b hb
    have da := T.down a la na
    have db := T.down b lb nb
    refine L.follows B da.1 db.1 ?_
    rw [da.2, db.2]
    refine B.follows_last hT hC hO la na nb ?_ hf
    have : (fun x => decide (x ∉ G) = true) = (fun x => x ∉ G) := by funext x; simp
    rw [← this]
    exact hr

end Plc
