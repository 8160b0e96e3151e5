import Verif.Proofs.Struts

/-! # The struts of a curve: the list -/

namespace Plc.Struts

open Plc.Core Plc.FindCrossings Plc.RandomPolygon Plc.Equilateral Plc.Motions Plc.Measure

/-! ## Removing entries -/

/-- The entry is within the bound. -/
noncomputable def good (b : ℝ) (x : Strut) : Bool := decide (x.len ≤ b)

theorem trimEnd_ok (b : ℝ) (l : List Strut) : ∀ k, k ≤ l.length → ∃ k', trimEnd b l k = .ok k' ∧ k' ≤ k ∧
    (l.take k').filter (good b) = (l.take k).filter (good b) ∧ (k' = 0 ∨ ∃ x, l[k' - 1]? = some x ∧ x.len ≤ b) := by
  intro k
  induction k with
  | zero => intro _; exact ⟨0, rfl, le_refl _, rfl, .inl rfl⟩
  | succ k ih =>
    intro hk
    have hkl : k < l.length := by omega
    unfold trimEnd
    rw [rd_lt hkl, ok_bind]
    split
    · rename_i hb
      obtain ⟨k', h1, h2, h3, h4⟩ := ih (by omega)
      refine ⟨k', h1, by omega, ?_, h4⟩
      rw [h3, List.take_succ_eq_append_getElem hkl, List.filter_append]
      simp [good, hb]
    · rename_i hb
      exact ⟨k + 1, rfl, le_refl _, rfl, .inr ⟨l[k], by simp, not_lt.mp hb⟩⟩

theorem set_filter_perm {b : ℝ} {l : List Strut} {i cnt : Nat} {x y : Strut} (hi : i < cnt - 1) (hc : cnt ≤ l.length) (hx : l[i]? = some x)
    (hy : l[cnt - 1]? = some y) (hbx : good b x = false) (hby : good b y = true) :
    (((l.set i y).take (cnt - 1)).filter (good b)).Perm ((l.take cnt).filter (good b)) := by
  obtain ⟨c, rfl⟩ : ∃ c, cnt = c + 1 := ⟨cnt - 1, by omega⟩
  simp only [Nat.add_sub_cancel] at hi hy ⊢
  have hcl : c < l.length := by omega
  have hyc : l[c] = y := by
    rw [List.getElem?_eq_getElem hcl] at hy; exact Option.some.inj hy
  have hxi : l[i]'(by omega) = x := by
    rw [List.getElem?_eq_getElem (by omega)] at hx; exact Option.some.inj hx
  rw [List.take_succ_eq_append_getElem hcl, hyc, List.filter_append]
  obtain ⟨D, hD⟩ : ∃ D, D = (l.take c).drop (i + 1) := ⟨_, rfl⟩
  have e1 : l.take c = l.take i ++ x :: D := by
    have hil : i < (l.take c).length := by rw [List.length_take]; omega
    have h := List.take_append_drop i (l.take c)
    rw [List.take_take, Nat.min_eq_left (by omega), List.drop_eq_getElem_cons hil, List.getElem_take, hxi, ← hD] at h
    exact h.symm
  have e2 : (l.set i y).take c = l.take i ++ y :: D := by
    rw [List.take_set, List.set_eq_take_append_cons_drop, if_pos (by rw [List.length_take]; omega), List.take_take, Nat.min_eq_left (by omega), ← hD]
  rw [e2, e1]
  simp only [List.filter_append, List.filter_cons, hbx, hby, Bool.false_eq_true, if_false, if_true, List.filter_nil]
  refine List.Perm.trans ?_ (List.perm_append_comm (l₁ := [y]))
  exact List.perm_middle

theorem fill_ok (b : ℝ) : ∀ (i cnt : Nat) (l : List Strut), i ≤ cnt → cnt ≤ l.length →
    (∀ (j : Nat) (x : Strut), i ≤ j → j < cnt → l[j]? = some x → x.len ≤ b) → (i = cnt → i = 0 ∨ ∃ x, l[i - 1]? = some x ∧ x.len ≤ b) →
    ∃ (cnt' : Nat) (l' : List Strut), fill b i cnt l = .ok (cnt', l') ∧ (l'.take cnt').Perm ((l.take cnt).filter (good b)) := by
  intro i
  induction i with
  | zero =>
    intro cnt l _ hc hall _
    refine ⟨cnt, l, rfl, ?_⟩
    rw [List.filter_eq_self.mpr]
    intro x hx
    obtain ⟨j, hj⟩ := List.mem_iff_getElem?.mp hx
    rw [List.getElem?_take] at hj
    split at hj
    · rename_i hjc
      exact decide_eq_true (hall j x (by omega) hjc hj)
    · simp at hj
  | succ i ih =>
    intro cnt l hi hc hall hlast
    have hil : i < l.length := by omega
    unfold fill
    rw [rd_lt hil, ok_bind]
    split
    · rename_i hb
      have hne : i + 1 ≠ cnt := by
        intro e
        rcases hlast e with h | ⟨x, hx, hxb⟩
        · omega
        · simp only [Nat.add_sub_cancel] at hx
          rw [List.getElem?_eq_getElem hil] at hx
          cases hx
          linarith
      have hcl : cnt - 1 < l.length := by omega
      rw [rd_lt hcl, ok_bind]
      have hy : l[cnt - 1].len ≤ b := hall (cnt - 1) _ (by omega) (by omega) (List.getElem?_eq_getElem hcl)
      obtain ⟨cnt', l', h1, h2⟩ := ih (cnt - 1) (l.set i l[cnt - 1]) (by omega) (by rw [List.length_set]; omega) (by
        intro j x hj1 hj2 hx
        rw [List.getElem?_set] at hx
        split at hx
        · first
            | (cases hx; exact hy)
            | (rw [if_pos (by omega)] at hx; cases hx; exact hy)
        · exact hall j x (by omega) (by omega) hx) (by
        intro e
        exfalso
        omega)
      refine ⟨cnt', l', h1, h2.trans ?_⟩
      exact set_filter_perm (by omega) hc (List.getElem?_eq_getElem hil) (List.getElem?_eq_getElem hcl)
        (by simp only [good, decide_eq_false_iff_not, not_le]; exact hb) (decide_eq_true hy)
    · rename_i hb
      refine ih cnt l (by omega) hc ?_ ?_
      · intro j x hj1 hj2 hx
        rcases Nat.lt_or_ge i j with h | h
        · exact hall j x (by omega) hj2 hx
        · have : j = i := by omega
          subst this
          rw [List.getElem?_eq_getElem hil] at hx
          cases hx; exact not_lt.mp hb
      · intro e; omega

/-- What remains is, up to the order, what is within the bound. -/
theorem cleanup_ok (b : ℝ) (l : List Strut) : ∃ l', cleanup b l = .ok l' ∧ l'.Perm (l.filter (good b)) := by
  obtain ⟨k, h1, h2, h3, h4⟩ := trimEnd_ok b l l.length (le_refl _)
  obtain ⟨cnt, l', h5, h6⟩ := fill_ok b k k l (le_refl _) h2 (fun j x h h' _ => absurd h' (by omega)) (fun _ => h4)
  refine ⟨l'.take cnt, ?_, ?_⟩
  · unfold cleanup
    rw [h1, ok_bind, h5, ok_bind]
  · rw [h3, List.take_length] at h6
    exact h6


/-! ## Offering struts -/

/-- A strut is entered if it is not too long. -/
noncomputable def offer (cutoff eps : ℝ) (size : Nat) (x : Strut) (st : St) : Res St :=
  if x.len ≤ upBound cutoff eps st.shortest then enter cutoff eps size x st else .ok st

noncomputable def offers (cutoff eps : ℝ) (size : Nat) : List Strut → St → Res St
  | [], st => .ok st
  | x :: l, st => do
    let st' ← offer cutoff eps size x st
    offers cutoff eps size l st'

theorem offers_append (cutoff eps : ℝ) (size : Nat) : ∀ (a b : List Strut) (st : St),
    offers cutoff eps size (a ++ b) st = (offers cutoff eps size a st >>= offers cutoff eps size b) := by
  intro a
  induction a with
  | nil => intro b st; rfl
  | cons x a ih =>
    intro b st
    simp only [List.cons_append, offers]
    rcases offer cutoff eps size x st with e | st'
    · rfl
    · simp only [ok_bind]; exact ih b st'

theorem offers_long (cutoff eps : ℝ) (size : Nat) (st : St) : ∀ (l : List Strut), (∀ x ∈ l, upBound cutoff eps st.shortest < x.len) →
    offers cutoff eps size l st = .ok st := by
  intro l
  induction l with
  | nil => intro _; rfl
  | cons x l ih =>
    intro h
    unfold offers offer
    rw [if_neg (not_le.mpr (h x List.mem_cons_self)), ok_bind]
    exact ih (fun y hy => h y (List.mem_cons_of_mem _ hy))

theorem upBound_mono {cutoff eps a b : ℝ} (h : a ≤ b) : upBound cutoff eps a ≤ upBound cutoff eps b := by
  unfold upBound; split
  · exact le_refl _
  · linarith

/-- There is room for the struts to come. -/
def Room (cutoff : ℝ) (size : Nat) (l L : List Strut) : Prop :=
  l.length + L.length ≤ size ∨ (0 < cutoff ∧ ((l ++ L).filter (good cutoff)).length ≤ size)

theorem lower_spec (d s : ℝ) : lower d s ≤ s ∧ lower d s ≤ d ∧ (lower d s = s ∨ lower d s = d) := by
  unfold lower; split
  · exact ⟨le_of_lt (by assumption), le_refl _, .inr rfl⟩
  · exact ⟨le_refl _, not_lt.mp (by assumption), .inl rfl⟩

theorem lower_of_lt {d s : ℝ} (h : d < s) : lower d s = d := by unfold lower; rw [if_pos h]

theorem enter_ok (cutoff eps : ℝ) (size : Nat) (x : Strut) (st : St) (he : 0 ≤ eps) (hlow : ∀ y ∈ st.struts, st.shortest ≤ y.len)
    (hx : x.len ≤ upBound cutoff eps st.shortest) :
    ∃ l', enter cutoff eps size x st = .ok ⟨lower x.len st.shortest, l'⟩ ∧ l'.Subperm (st.struts ++ [x]) ∧
      (st.struts.length ≤ size → l'.length ≤ size) ∧ l'.length ≤ st.struts.length + 1 ∧
      (∀ L, Room cutoff size st.struts (x :: L) → (l'.filter (good (upBound cutoff eps (lower x.len st.shortest)))).Perm
        ((st.struts ++ [x]).filter (good (upBound cutoff eps (lower x.len st.shortest))))) := by
  obtain ⟨l1, l2, _⟩ := lower_spec x.len st.shortest
  unfold enter
  split
  swap
  · rename_i hs
    refine ⟨st.struts, rfl, (List.sublist_append_left _ _).subperm, id, by omega, fun L hL => ?_⟩
    exfalso
    rcases hL with h | ⟨hc, h⟩
    · simp at h; omega
    · have : x ∈ (st.struts ++ x :: L).filter (good cutoff) := by
        refine List.mem_filter.mpr ⟨by simp, ?_⟩
        have : upBound cutoff eps st.shortest = cutoff := by unfold upBound; rw [if_pos hc]
        simp only [good, decide_eq_true_eq]; rw [this] at hx; exact hx
      have := List.length_pos_of_mem this
      omega
  rename_i hs
  obtain ⟨b, hb⟩ : ∃ b, b = upBound cutoff eps (lower x.len st.shortest) := ⟨_, rfl⟩
  obtain ⟨l, hl⟩ : ∃ l, l = (if cutoff = 0 ∧ eps < st.shortest - x.len then [] else st.struts) := ⟨_, rfl⟩
  have hsub : l.Subperm st.struts := by
    rw [hl]; split
    · exact List.nil_subperm
    · exact List.Subperm.refl _
  have hlen : l.length ≤ st.struts.length := by
    rw [hl]; split
    · simp
    · exact le_refl _
  have hfil : l.filter (good b) = st.struts.filter (good b) := by
    rw [hl]; split
    · rename_i hc
      symm
      rw [List.filter_nil, List.filter_eq_nil_iff]
      intro y hy
      have := hlow y hy
      have : upBound cutoff eps (lower x.len st.shortest) = x.len + eps := by
        unfold upBound; rw [if_neg (by rw [hc.1]; exact lt_irrefl _), lower_of_lt (by linarith [hc.2])]
      simp only [good, decide_eq_true_eq, not_le]
      rw [hb, this]
      linarith [hc.2]
    · rfl
  have hzero : l = [] ∨ l = st.struts := by
    rw [hl]; split
    · exact .inl rfl
    · exact .inr rfl
  simp only [← hl, ← hb]
  have hperm : ∀ m : List Strut, (m.filter (good b)).Perm (l.filter (good b)) → ((m ++ [x]).filter (good b)).Perm ((st.struts ++ [x]).filter (good b)) := by
    intro m hm
    rw [List.filter_append, List.filter_append, ← hfil]
    exact hm.append_right _
  split
  · refine ⟨l ++ [x], rfl, ?_, ?_, ?_, fun L _ => hperm l (List.Perm.refl _)⟩
    · exact (List.subperm_append_right _).mpr hsub
    · intro _; rw [List.length_append]; simp; omega
    · rw [List.length_append]; simp; omega
  · rename_i hfull
    obtain ⟨l', h1, h2⟩ := cleanup_ok b l
    have hsub' : l'.Subperm st.struts := (h2.subperm.trans List.filter_sublist.subperm).trans hsub
    have hlen' : l'.length ≤ l.length := by rw [h2.length_eq]; exact List.length_filter_le _ _
    rw [h1, ok_bind]
    split
    · refine ⟨l' ++ [x], rfl, ?_, ?_, ?_, fun L _ => hperm l' ?_⟩
      · exact (List.subperm_append_right _).mpr hsub'
      · intro _; rw [List.length_append]; simp; omega
      · rw [List.length_append]; simp; omega
      · have := h2.filter (good b)
        rwa [List.filter_filter, show (fun a => good b a && good b a) = good b from by funext a; simp] at this
    · rename_i hfull'
      have hw : wr l' 0 x = .ok (l'.set 0 x) := by unfold wr; rw [if_pos (by omega)]
      rw [hw, ok_bind]
      refine ⟨l'.set 0 x, rfl, ?_, ?_, ?_, ?_⟩
      · rcases l' with _ | ⟨y, r⟩
        · exact List.nil_subperm
        · rw [List.set_cons_zero]
          refine (List.perm_append_singleton x r).symm.subperm.trans ?_
          refine (List.subperm_append_right _).mpr ?_
          exact (List.sublist_cons_self y r).subperm.trans hsub'
      · intro h; rw [List.length_set]; omega
      · rw [List.length_set]; omega
      · intro L hL
        exfalso
        rcases hzero with h0 | h0
        · rw [h0] at hfull; simp at hfull; omega
        · rcases hL with h | ⟨hc, h⟩
          · simp only [List.length_cons] at h; rw [h0] at hfull; omega
          · have hbc : b = cutoff := by rw [hb]; unfold upBound; rw [if_pos hc]
            have hxg : good cutoff x = true := by
              have : upBound cutoff eps st.shortest = cutoff := by unfold upBound; rw [if_pos hc]
              simp only [good, decide_eq_true_eq]; rw [this] at hx; exact hx
            have e := h2.length_eq
            rw [h0, hbc] at e
            rw [List.filter_append, List.filter_cons_of_pos hxg, List.length_append, List.length_cons] at h
            omega

theorem filter_of_le {a b : ℝ} (h : a ≤ b) (l : List Strut) : (l.filter (good b)).filter (good a) = l.filter (good a) := by
  rw [List.filter_filter]
  refine List.filter_congr ?_
  intro x _
  simp only [good, ← Bool.decide_and]
  exact decide_eq_decide.mpr ⟨fun h => h.1, fun h' => ⟨h', le_trans h' h⟩⟩

/-- What offering a list of struts does. -/
theorem offers_ok (cutoff eps : ℝ) (size : Nat) (he : 0 ≤ eps) : ∀ (L : List Strut) (st : St), (∀ y ∈ st.struts, st.shortest ≤ y.len) →
    ∃ st', offers cutoff eps size L st = .ok st' ∧ st'.shortest ≤ st.shortest ∧ (∀ y ∈ st'.struts, st'.shortest ≤ y.len) ∧
      (∀ x ∈ L, (0 < cutoff → x.len ≤ cutoff) → st'.shortest ≤ x.len) ∧
      (st'.shortest = st.shortest ∨ ∃ x ∈ L, st'.shortest = x.len ∧ (0 < cutoff → x.len ≤ cutoff)) ∧
      st'.struts.Subperm (st.struts ++ L) ∧ (st.struts.length ≤ size → st'.struts.length ≤ size) ∧
      (Room cutoff size st.struts L → (st'.struts.filter (good (upBound cutoff eps st'.shortest))).Perm
        ((st.struts ++ L).filter (good (upBound cutoff eps st'.shortest)))) := by
  intro L
  induction L with
  | nil =>
    intro st hlow
    exact ⟨st, rfl, le_refl _, hlow, by simp, .inl rfl, by simp [List.Subperm.refl], id, fun _ => by simp⟩
  | cons x L ih =>
    intro st hlow
    unfold offers offer
    by_cases hx : x.len ≤ upBound cutoff eps st.shortest
    · rw [if_pos hx]
      obtain ⟨l', a1, a2, a3, a4, a5⟩ := enter_ok cutoff eps size x st he hlow hx
      obtain ⟨m1, m2, m3⟩ := lower_spec x.len st.shortest
      rw [a1, ok_bind]
      have hxc : 0 < cutoff → x.len ≤ cutoff := by
        intro h; unfold upBound at hx; rw [if_pos h] at hx; exact hx
      obtain ⟨st', b1, b2, b3, b4, b5, b6, b7, b8⟩ := ih ⟨lower x.len st.shortest, l'⟩ (by
        intro y hy
        rcases List.mem_append.mp (a2.subset hy) with h | h
        · exact le_trans m1 (hlow y h)
        · rw [List.mem_singleton.mp h]; exact m2)
      refine ⟨st', b1, le_trans b2 m1, b3, ?_, ?_, ?_, fun h => b7 (a3 h), ?_⟩
      · intro y hy hc
        rcases List.mem_cons.mp hy with rfl | h
        · exact le_trans b2 m2
        · exact b4 y h hc
      · rcases b5 with h | ⟨y, hy, h⟩
        · rcases m3 with h' | h'
          · exact .inl (h.trans h')
          · exact .inr ⟨x, List.mem_cons_self, h.trans h', hxc⟩
        · exact .inr ⟨y, List.mem_cons_of_mem _ hy, h⟩
      · refine b6.trans ?_
        rw [show st.struts ++ x :: L = (st.struts ++ [x]) ++ L from by simp]
        exact (List.subperm_append_right _).mpr a2
      · intro hr
        have p := a5 L hr
        have hr' : Room cutoff size l' L := by
          rcases hr with h | ⟨hc, h⟩
          · left; simp only [List.length_cons] at h; omega
          · right
            refine ⟨hc, ?_⟩
            have hu : upBound cutoff eps (lower x.len st.shortest) = cutoff := by unfold upBound; rw [if_pos hc]
            rw [hu] at p
            have : ((l' ++ L).filter (good cutoff)).length = ((st.struts ++ x :: L).filter (good cutoff)).length := by
              rw [show st.struts ++ x :: L = (st.struts ++ [x]) ++ L from by simp, List.filter_append, List.filter_append (l₁ := st.struts ++ [x]),
                List.length_append, List.length_append, p.length_eq]
            rw [this]; exact h
        refine (b8 hr').trans ?_
        rw [show st.struts ++ x :: L = (st.struts ++ [x]) ++ L from by simp, List.filter_append, List.filter_append (l₁ := st.struts ++ [x])]
        refine List.Perm.append_right _ ?_
        have q := p.filter (good (upBound cutoff eps st'.shortest))
        rwa [filter_of_le (upBound_mono b2), filter_of_le (upBound_mono b2)] at q
    · rw [if_neg hx, ok_bind]
      have hlt := not_le.mp hx
      obtain ⟨st', b1, b2, b3, b4, b5, b6, b7, b8⟩ := ih st hlow
      have hbad : good (upBound cutoff eps st'.shortest) x = false := by
        simp only [good, decide_eq_false_iff_not, not_le]
        exact lt_of_le_of_lt (upBound_mono b2) hlt
      refine ⟨st', b1, b2, b3, ?_, ?_, ?_, b7, ?_⟩
      · intro y hy hc
        rcases List.mem_cons.mp hy with rfl | h
        · unfold upBound at hlt
          split at hlt
          · rename_i h; exact absurd (hc h) (not_le.mpr hlt)
          · linarith
        · exact b4 y h hc
      · rcases b5 with h | ⟨y, hy, h⟩
        · exact .inl h
        · exact .inr ⟨y, List.mem_cons_of_mem _ hy, h⟩
      · refine b6.trans ?_
        exact (List.subperm_append_left _).mpr (List.sublist_cons_self _ _).subperm
      · intro hr
        have hr' : Room cutoff size st.struts L := by
          rcases hr with h | ⟨hc, h⟩
          · left; simp only [List.length_cons] at h; omega
          · right
            refine ⟨hc, le_trans ?_ h⟩
            rw [List.filter_append, List.filter_append, List.length_append, List.length_append]
            have : (L.filter (good cutoff)).length ≤ ((x :: L).filter (good cutoff)).length := by
              rw [List.filter_cons]; split
              · simp
              · exact le_refl _
            omega
        refine (b8 hr').trans ?_
        rw [List.filter_append, List.filter_append, List.filter_cons, hbad]
        simp

end Plc.Struts
