import Verif.Spec.Minrad
import Verif.Props.Measure

/-! # The minimal radius: lemmas -/

namespace Plc.Minrad

open Plc.Core Plc.FindCrossings Plc.RandomPolygon Plc.Equilateral Plc.Motions Plc.Measure

/-! ## Removing entries -/

/-- The entry is within the bound. -/
noncomputable def good (b : ℝ) (x : Loc) : Bool := decide (x.mr ≤ b)

theorem trimEnd_ok (b : ℝ) (l : List Loc) : ∀ k, k ≤ l.length → ∃ k', trimEnd b l k = .ok k' ∧ k' ≤ k ∧
    (l.take k').filter (good b) = (l.take k).filter (good b) ∧ (k' = 0 ∨ ∃ x, l[k' - 1]? = some x ∧ x.mr ≤ b) := by
  intro k
  induction k with
  | zero => intro _; exact ⟨0, rfl, le_refl _, rfl, .inl rfl⟩
  | succ k ih =>
    intro hk
    have hkl : k < l.length := by omega
    unfold trimEnd
    rw [rd_lt hkl, ok_bind]
    split
    · rename_i hb
      obtain ⟨k', h1, h2, h3, h4⟩ := ih (by omega)
      refine ⟨k', h1, by omega, ?_, h4⟩
      rw [h3, List.take_succ_eq_append_getElem hkl, List.filter_append]
      simp [good, hb]
    · rename_i hb
      exact ⟨k + 1, rfl, le_refl _, rfl, .inr ⟨l[k], by simp, not_lt.mp hb⟩⟩

theorem set_filter_perm {b : ℝ} {l : List Loc} {i cnt : Nat} {x y : Loc} (hi : i < cnt - 1) (hc : cnt ≤ l.length) (hx : l[i]? = some x)
    (hy : l[cnt - 1]? = some y) (hbx : good b x = false) (hby : good b y = true) :
    (((l.set i y).take (cnt - 1)).filter (good b)).Perm ((l.take cnt).filter (good b)) := by
  obtain ⟨c, rfl⟩ : ∃ c, cnt = c + 1 := ⟨cnt - 1, by omega⟩
  simp only [Nat.add_sub_cancel] at hi hy ⊢
  have hcl : c < l.length := by omega
  have hyc : l[c] = y := by
    rw [List.getElem?_eq_getElem hcl] at hy; exact Option.some.inj hy
  have hxi : l[i]'(by omega) = x := by
    rw [List.getElem?_eq_getElem (by omega)] at hx; exact Option.some.inj hx
  rw [List.take_succ_eq_append_getElem hcl, hyc, List.filter_append]
  obtain ⟨D, hD⟩ : ∃ D, D = (l.take c).drop (i + 1) := ⟨_, rfl⟩
  have e1 : l.take c = l.take i ++ x :: D := by
    have hil : i < (l.take c).length := by rw [List.length_take]; omega
    have h := List.take_append_drop i (l.take c)
    rw [List.take_take, Nat.min_eq_left (by omega), List.drop_eq_getElem_cons hil, List.getElem_take, hxi, ← hD] at h
    exact h.symm
  have e2 : (l.set i y).take c = l.take i ++ y :: D := by
    rw [List.take_set, List.set_eq_take_append_cons_drop, if_pos (by rw [List.length_take]; omega), List.take_take, Nat.min_eq_left (by omega), ← hD]
  rw [e2, e1]
  simp only [List.filter_append, List.filter_cons, hbx, hby, Bool.false_eq_true, if_false, if_true, List.filter_nil]
  refine List.Perm.trans ?_ (List.perm_append_comm (l₁ := [y]))
  exact List.perm_middle

theorem fill_ok (b : ℝ) : ∀ (i cnt : Nat) (l : List Loc), i ≤ cnt → cnt ≤ l.length →
    (∀ (j : Nat) (x : Loc), i ≤ j → j < cnt → l[j]? = some x → x.mr ≤ b) → (i = cnt → i = 0 ∨ ∃ x, l[i - 1]? = some x ∧ x.mr ≤ b) →
    ∃ (cnt' : Nat) (l' : List Loc), fill b i cnt l = .ok (cnt', l') ∧ (l'.take cnt').Perm ((l.take cnt).filter (good b)) := by
  intro i
  induction i with
  | zero =>
    intro cnt l _ hc hall _
    refine ⟨cnt, l, rfl, ?_⟩
    rw [List.filter_eq_self.mpr]
    intro x hx
    obtain ⟨j, hj⟩ := List.mem_iff_getElem?.mp hx
    rw [List.getElem?_take] at hj
    split at hj
    · rename_i hjc
      exact decide_eq_true (hall j x (by omega) hjc hj)
    · simp at hj
  | succ i ih =>
    intro cnt l hi hc hall hlast
    have hil : i < l.length := by omega
    unfold fill
    rw [rd_lt hil, ok_bind]
    split
    · rename_i hb
      have hne : i + 1 ≠ cnt := by
        intro e
        rcases hlast e with h | ⟨x, hx, hxb⟩
        · omega
        · simp only [Nat.add_sub_cancel] at hx
          rw [List.getElem?_eq_getElem hil] at hx
          cases hx
          linarith
      have hcl : cnt - 1 < l.length := by omega
      rw [rd_lt hcl, ok_bind]
      have hy : l[cnt - 1].mr ≤ b := hall (cnt - 1) _ (by omega) (by omega) (List.getElem?_eq_getElem hcl)
      obtain ⟨cnt', l', h1, h2⟩ := ih (cnt - 1) (l.set i l[cnt - 1]) (by omega) (by rw [List.length_set]; omega) (by
        intro j x hj1 hj2 hx
        rw [List.getElem?_set] at hx
        split at hx
        · first
            | (cases hx; exact hy)
            | (rw [if_pos (by omega)] at hx; cases hx; exact hy)
        · exact hall j x (by omega) (by omega) hx) (by
        intro e
        exfalso
        omega)
      refine ⟨cnt', l', h1, h2.trans ?_⟩
      exact set_filter_perm (by omega) hc (List.getElem?_eq_getElem hil) (List.getElem?_eq_getElem hcl)
        (by simp only [good, decide_eq_false_iff_not, not_le]; exact hb) (decide_eq_true hy)
    · rename_i hb
      refine ih cnt l (by omega) hc ?_ ?_
      · intro j x hj1 hj2 hx
        rcases Nat.lt_or_ge i j with h | h
        · exact hall j x (by omega) hj2 hx
        · have : j = i := by omega
          subst this
          rw [List.getElem?_eq_getElem hil] at hx
          cases hx; exact not_lt.mp hb
      · intro e; omega

/-- What remains is, up to the order, what is within the bound. -/
theorem pare_ok (b : ℝ) (l : List Loc) : ∃ l', pare b l = .ok l' ∧ l'.Perm (l.filter (good b)) := by
  obtain ⟨k, h1, h2, h3, h4⟩ := trimEnd_ok b l l.length (le_refl _)
  obtain ⟨cnt, l', h5, h6⟩ := fill_ok b k k l (le_refl _) h2 (fun j x h h' _ => absurd h' (by omega)) (fun _ => h4)
  refine ⟨l'.take cnt, ?_, ?_⟩
  · unfold pare
    rw [h1, ok_bind, h5, ok_bind]
  · rw [h3, List.take_length] at h6
    exact h6

theorem enter_ok (size : Nat) (b : ℝ) (x : Loc) (l : List Loc) : ∃ l', enter size b x l = .ok l' ∧
    (∀ y ∈ l', y = x ∨ y ∈ l) ∧ (l.length ≤ size → l'.length ≤ size) ∧ l'.length ≤ l.length + 1 ∧
    (l.length < size → l' = l ++ (if x.mr ≤ b then [x] else [])) := by
  unfold enter
  split
  · rename_i hb
    split
    · rename_i hl
      refine ⟨l ++ [x], rfl, ?_, ?_, ?_, fun _ => rfl⟩
      · intro y hy
        rcases List.mem_append.mp hy with h | h
        · exact .inr h
        · exact .inl (List.mem_singleton.mp h)
      · intro _; rw [List.length_append]; simp; omega
      · rw [List.length_append]; simp
    · rename_i hl
      obtain ⟨l', h1, h2⟩ := pare_ok b l
      have hsub : ∀ y ∈ l', y ∈ l := fun y hy => List.mem_of_mem_filter (h2.mem_iff.mp hy)
      have hlen : l'.length ≤ l.length := by rw [h2.length_eq]; exact List.length_filter_le _ _
      rw [h1, ok_bind]
      split
      · rename_i hl'
        refine ⟨l' ++ [x], rfl, ?_, ?_, ?_, fun h => absurd h hl⟩
        · intro y hy
          rcases List.mem_append.mp hy with h | h
          · exact .inr (hsub y h)
          · exact .inl (List.mem_singleton.mp h)
        · intro _; rw [List.length_append]; simp; omega
        · rw [List.length_append]; simp; omega
      · exact ⟨l', rfl, fun y hy => .inr (hsub y hy), fun h => le_trans hlen h, by omega, fun h => absurd h hl⟩
  · exact ⟨l, rfl, fun y hy => .inr hy, id, by omega, fun _ => by simp⟩

/-! ## Corners -/

/-- A corner: component, index, the vectors before and after. -/
structure Corner where
  i : Nat
  j : Nat
  a : V3
  b : V3

/-- The corner counts. -/
noncomputable def Corner.counts (k : Corner) : Bool := decide (1e-12 ≤ norm3 (k.a.crossProd k.b))

noncomputable def Corner.rad (k : Corner) : ℝ := (norm3 k.a * norm3 k.b + k.a.dot k.b) / (2 * norm3 (k.a.crossProd k.b))

noncomputable def Corner.locs (k : Corner) : List Loc :=
  if k.counts then [⟨k.i, k.j, (k.j : Int) - 1, norm3 k.a * k.rad⟩, ⟨k.i, k.j, (k.j : Int) + 1, norm3 k.b * k.rad⟩] else []

/-- All locations. -/
noncomputable def cands (ks : List Corner) : List Loc := ks.flatMap Corner.locs

noncomputable def visits (cutoff eps : ℝ) (size : Option Nat) : List Corner → ℝ × List Loc → Res (ℝ × List Loc)
  | [], st => .ok st
  | k :: ks, st => do
    let st' ← visit cutoff eps size k.i k.j k.a k.b st
    visits cutoff eps size ks st'

theorem visits_append (cutoff eps : ℝ) (size : Option Nat) : ∀ (ks ks' : List Corner) (st : ℝ × List Loc),
    visits cutoff eps size (ks ++ ks') st = (visits cutoff eps size ks st >>= visits cutoff eps size ks') := by
  intro ks
  induction ks with
  | nil => intro ks' st; rfl
  | cons k ks ih =>
    intro ks' st
    simp only [List.cons_append, visits]
    rcases visit cutoff eps size k.i k.j k.a k.b st with e | st'
    · rfl
    · simp only [ok_bind]; exact ih ks' st'

/-- What one visit does. -/
theorem visit_ok (cutoff eps : ℝ) (size : Option Nat) (k : Corner) (st : ℝ × List Loc) :
    ∃ st', visit cutoff eps size k.i k.j k.a k.b st = .ok st' ∧ st'.1 ≤ st.1 ∧ (∀ x ∈ k.locs, st'.1 ≤ x.mr) ∧
      (st'.1 = st.1 ∨ ∃ x ∈ k.locs, st'.1 = x.mr) ∧ (∀ y ∈ st'.2, y ∈ st.2 ∨ y ∈ k.locs) ∧
      (∀ n, size = some n → (st.2.length ≤ n → st'.2.length ≤ n) ∧ st'.2.length ≤ st.2.length + 2 ∧
        (st.2.length + 2 ≤ n → st'.2 = st.2 ++ k.locs.filter (good (upBound cutoff eps st'.1)))) := by
  unfold visit
  simp only
  by_cases hc : norm3 (k.a.crossProd k.b) < 1e-12
  · rw [if_pos hc]
    have hl : k.locs = [] := by
      unfold Corner.locs Corner.counts
      rw [if_neg (by simpa using hc)]
    refine ⟨st, rfl, le_refl _, by simp [hl], .inl rfl, fun y hy => .inl hy, fun n _ => ⟨id, by omega, fun _ => by simp [hl]⟩⟩
  · rw [if_neg hc]
    have hl : k.locs = [⟨k.i, k.j, (k.j : Int) - 1, norm3 k.a * k.rad⟩, ⟨k.i, k.j, (k.j : Int) + 1, norm3 k.b * k.rad⟩] := by
      unfold Corner.locs Corner.counts
      rw [if_pos (by simpa using hc)]
    obtain ⟨rad, hrad⟩ : ∃ rad, rad = k.rad := ⟨_, rfl⟩
    have hrad' : (norm3 k.a * norm3 k.b + k.a.dot k.b) / (2 * norm3 (k.a.crossProd k.b)) = rad := by rw [hrad]; rfl
    rw [← hrad] at hl
    rw [hrad']
    obtain ⟨mi, hmi⟩ : ∃ mi, mi = norm3 k.a * rad := ⟨_, rfl⟩
    obtain ⟨pl, hpl⟩ : ∃ pl, pl = norm3 k.b * rad := ⟨_, rfl⟩
    rw [← hmi, ← hpl] at hl ⊢
    obtain ⟨th, hth⟩ : ∃ th, th = (if mi < pl then mi else pl) := ⟨_, rfl⟩
    rw [← hth]
    obtain ⟨mr, hmr⟩ : ∃ mr, mr = (if st.1 < th then st.1 else th) := ⟨_, rfl⟩
    rw [← hmr]
    have t1 : th ≤ mi ∧ th ≤ pl ∧ (th = mi ∨ th = pl) := by
      rw [hth]; split
      · exact ⟨le_refl _, le_of_lt (by assumption), .inl rfl⟩
      · exact ⟨not_lt.mp (by assumption), le_refl _, .inr rfl⟩
    have t2 : mr ≤ st.1 ∧ mr ≤ th ∧ (mr = st.1 ∨ mr = th) := by
      rw [hmr]; split
      · exact ⟨le_refl _, le_of_lt (by assumption), .inl rfl⟩
      · exact ⟨not_lt.mp (by assumption), le_refl _, .inr rfl⟩
    have t3 : ∀ x ∈ k.locs, mr ≤ x.mr := by
      rw [hl]
      intro x hx
      simp only [List.mem_cons, List.not_mem_nil, or_false] at hx
      rcases hx with rfl | rfl
      · exact le_trans t2.2.1 t1.1
      · exact le_trans t2.2.1 t1.2.1
    have t4 : mr = st.1 ∨ ∃ x ∈ k.locs, mr = x.mr := by
      rcases t2.2.2 with h | h
      · exact .inl h
      · rw [hl]
        rcases t1.2.2 with h' | h'
        · exact .inr ⟨_, List.mem_cons_self, by rw [h, h']⟩
        · exact .inr ⟨_, List.mem_cons_of_mem _ List.mem_cons_self, by rw [h, h']⟩
    rcases size with _ | n
    · exact ⟨(mr, st.2), rfl, t2.1, t3, t4, fun y hy => .inl hy, fun n h => by simp at h⟩
    · obtain ⟨l1, a1, a2, a3, a4, a5⟩ := enter_ok n (upBound cutoff eps mr) ⟨k.i, k.j, (k.j : Int) - 1, mi⟩ st.2
      obtain ⟨l2, b1, b2, b3, b4, b5⟩ := enter_ok n (upBound cutoff eps mr) ⟨k.i, k.j, (k.j : Int) + 1, pl⟩ l1
      simp only [a1, ok_bind, b1]
      refine ⟨(mr, l2), rfl, t2.1, t3, t4, ?_, ?_⟩
      · intro y hy
        rw [hl]
        rcases b2 y hy with h | h
        · right; rw [h]; simp
        · rcases a2 y h with h | h
          · right; rw [h]; simp
          · exact .inl h
      · intro m hm
        cases hm
        refine ⟨fun h => b3 (a3 h), by simp only; omega, ?_⟩
        intro h
        simp only
        rw [b5 (by omega), a5 (by omega), hl, List.append_assoc]
        congr 1
        simp only [List.filter_cons, good, decide_eq_true_eq, List.filter_nil]
        split <;> split <;> rfl

theorem upBound_mono {cutoff eps a b : ℝ} (h : a ≤ b) : upBound cutoff eps a ≤ upBound cutoff eps b := by
  unfold upBound; split
  · exact le_refl _
  · linarith

theorem visits_ok (cutoff eps : ℝ) (size : Option Nat) : ∀ (ks : List Corner) (st : ℝ × List Loc),
    ∃ st', visits cutoff eps size ks st = .ok st' ∧ st'.1 ≤ st.1 ∧ (∀ x ∈ cands ks, st'.1 ≤ x.mr) ∧
      (st'.1 = st.1 ∨ ∃ x ∈ cands ks, st'.1 = x.mr) ∧ (∀ y ∈ st'.2, y ∈ st.2 ∨ y ∈ cands ks) ∧
      (∀ n, size = some n → (st.2.length ≤ n → st'.2.length ≤ n) ∧
        (st.2.length + 2 * ks.length ≤ n → st'.2.filter (good (upBound cutoff eps st'.1)) =
          (st.2 ++ cands ks).filter (good (upBound cutoff eps st'.1)))) := by
  intro ks
  induction ks with
  | nil =>
    intro st
    exact ⟨st, rfl, le_refl _, by simp [cands], .inl rfl, fun y hy => .inl hy, fun n _ => ⟨id, fun _ => by simp [cands]⟩⟩
  | cons k ks ih =>
    intro st
    obtain ⟨s1, a1, a2, a3, a4, a5, a6⟩ := visit_ok cutoff eps size k st
    obtain ⟨s2, b1, b2, b3, b4, b5, b6⟩ := ih s1
    have hc : cands (k :: ks) = k.locs ++ cands ks := rfl
    refine ⟨s2, ?_, le_trans b2 a2, ?_, ?_, ?_, ?_⟩
    · unfold visits; rw [a1, ok_bind, b1]
    · rw [hc]
      intro x hx
      rcases List.mem_append.mp hx with h | h
      · exact le_trans b2 (a3 x h)
      · exact b3 x h
    · rw [hc]
      rcases b4 with h | ⟨x, hx, h⟩
      · rcases a4 with h' | ⟨x, hx, h'⟩
        · exact .inl (h.trans h')
        · exact .inr ⟨x, List.mem_append_left _ hx, h.trans h'⟩
      · exact .inr ⟨x, List.mem_append_right _ hx, h⟩
    · intro y hy
      rw [hc]
      rcases b5 y hy with h | h
      · rcases a5 y h with h | h
        · exact .inl h
        · exact .inr (List.mem_append_left _ h)
      · exact .inr (List.mem_append_right _ h)
    · intro n hn
      obtain ⟨c1, c2, c3⟩ := a6 n hn
      obtain ⟨d1, d2⟩ := b6 n hn
      refine ⟨fun h => d1 (c1 h), ?_⟩
      intro h
      rw [List.length_cons] at h
      rw [d2 (by omega), c3 (by omega), hc]
      simp only [List.filter_append, List.filter_filter, List.append_assoc]
      congr 2
      refine List.filter_congr ?_
      intro x _
      have := upBound_mono (cutoff := cutoff) (eps := eps) b2
      simp only [good, ← Bool.decide_and]
      refine decide_eq_decide.mpr ⟨fun h => h.1, fun h => ⟨h, le_trans h this⟩⟩

/-! ## The vertices -/

/-- The corners of a list of points, numbered from `j`. -/
noncomputable def corners (i : Nat) : Nat → List V3 → List Corner
  | j, a :: b :: c :: l => ⟨i, j, b.sub a, c.sub b⟩ :: corners i (j + 1) (b :: c :: l)
  | _, _ => []

theorem vertLoop_ok (cutoff eps : ℝ) (size : Option Nat) (i : Nat) (c : Comp) : ∀ (l : List V3) (j : Nat) (a b : V3) (st : ℝ × List Loc),
    Reads c ((j : Int) - 1) (a :: b :: l) → vertLoop cutoff eps size i c l.length j (b.sub a) st = visits cutoff eps size (corners i j (a :: b :: l)) st := by
  intro l
  induction l with
  | nil => intro j a b st _; rfl
  | cons d l ih =>
    intro j a b st h
    have h1 := h.tail
    rw [sub_add_cancel] at h1
    have h2 := h1.tail
    rw [List.length_cons, vertLoop, h2.head, ok_bind, h1.head, ok_bind]
    simp only [corners, visits]
    rcases visit cutoff eps size i j (b.sub a) (d.sub b) st with e | st'
    · rfl
    · simp only [ok_bind]
      exact ih (j + 1) b d st' (by push_cast; rw [add_sub_cancel_right]; exact h1)

/-- All vertices with their neighbours, in the order of the loop. -/
def walk (c : Comp) : List V3 := if c.isOpen then c.vt else c.vt.drop (c.vt.length - 1) ++ c.vt ++ c.vt.take 1

noncomputable def cornersOf (i : Nat) (c : Comp) : List Corner := corners i (if c.isOpen then 1 else 0) (walk c)

noncomputable def allCorners : Nat → List Comp → List Corner
  | _, [] => []
  | i, c :: cs => cornersOf i c ++ allCorners (i + 1) cs

theorem walk_closed {c : Comp} (ho : c.isOpen = false) (h3 : 3 ≤ c.vt.length) : ∃ (a b : V3) (l : List V3), walk c = a :: b :: l ∧ l.length = c.vt.length ∧
    Reads c (-1) (walk c) ∧ (∀ k, k < c.vt.length + 2 → (walk c)[k]? = c.vt[(k + (c.vt.length - 1)) % c.vt.length]?) := by
  have hw : walk c = c.vt.drop (c.vt.length - 1) ++ c.vt ++ c.vt.take 1 := by unfold walk; rw [ho]; rfl
  have hlen : (walk c).length = c.vt.length + 2 := by
    rw [hw]; simp only [List.length_append, List.length_drop, List.length_take]; omega
  have hget : ∀ k, k < c.vt.length + 2 → (walk c)[k]? = c.vt[(k + (c.vt.length - 1)) % c.vt.length]? := by
    intro k hk
    rw [hw, List.append_assoc]
    rcases Nat.eq_zero_or_pos k with rfl | hk0
    · rw [List.getElem?_append_left (by rw [List.length_drop]; omega), List.getElem?_drop]
      congr 1
      rw [Nat.mod_eq_of_lt (by omega)]; omega
    · rw [List.getElem?_append_right (by rw [List.length_drop]; omega), List.length_drop]
      rw [show k - (c.vt.length - (c.vt.length - 1)) = k - 1 by omega]
      rcases Nat.lt_or_ge (k - 1) c.vt.length with h | h
      · rw [List.getElem?_append_left h]
        congr 1
        rw [show k + (c.vt.length - 1) = (k - 1) + c.vt.length by omega, Nat.add_mod_right, Nat.mod_eq_of_lt h]
      · rw [List.getElem?_append_right h, List.getElem?_take, if_pos (by omega)]
        congr 1
        rw [show k + (c.vt.length - 1) = c.vt.length + c.vt.length by omega, Nat.add_mod_right, Nat.mod_self]
        omega
  obtain ⟨a, l0, e0⟩ : ∃ a l0, walk c = a :: l0 := by
    rcases h : walk c with _ | ⟨a, l0⟩
    · rw [h] at hlen; simp at hlen
    · exact ⟨a, l0, rfl⟩
  obtain ⟨b, l, e1⟩ : ∃ b l, l0 = b :: l := by
    rcases h : l0 with _ | ⟨b, l⟩
    · rw [e0, h] at hlen; simp at hlen
    · exact ⟨b, l, rfl⟩
  refine ⟨a, b, l, by rw [e0, e1], ?_, ?_, hget⟩
  · rw [e0, e1] at hlen; simpa using hlen
  · intro k q hq
    have hk : k < c.vt.length + 2 := by rw [← hlen]; exact (List.getElem?_eq_some_iff.mp hq).1
    rw [hget k hk] at hq
    unfold vtAt
    rw [if_neg (by omega)]
    split
    · rename_i hz
      have : k = 0 := by omega
      subst this
      rw [ho]
      simp only [Bool.false_eq_true, if_false]
      refine rd_eq_ok.mpr ?_
      rw [← hq]; congr 1
      rw [zero_add, Nat.mod_eq_of_lt (by omega)]
    · split
      · rename_i hz
        rw [ho]
        simp only [Bool.false_eq_true, if_false]
        refine rd_eq_ok.mpr ?_
        rw [← hq]; congr 1
        rw [show k + (c.vt.length - 1) = c.vt.length + c.vt.length by omega, Nat.add_mod_right, Nat.mod_self]
      · refine rd_eq_ok.mpr ?_
        rw [← hq]; congr 1
        rw [show k + (c.vt.length - 1) = (k - 1) + c.vt.length by omega, Nat.add_mod_right, Nat.mod_eq_of_lt (by omega)]
        omega

theorem compLoop_ok (cutoff eps : ℝ) (size : Option Nat) : ∀ (cs : List Comp) (i : Nat) (st : ℝ × List Loc),
    (∀ c ∈ cs, 2 ≤ c.vt.length ∧ Proper c) → compLoop cutoff eps size i cs st = visits cutoff eps size (allCorners i cs) st := by
  intro cs
  induction cs with
  | nil => intro i st _; rfl
  | cons c cs ih =>
    intro i st h
    obtain ⟨h2, hp⟩ := h c List.mem_cons_self
    have hrest := fun st => ih (i + 1) st (fun c hc => h c (List.mem_cons_of_mem _ hc))
    have hmain : oneComp cutoff eps size i c st = visits cutoff eps size (cornersOf i c) st := by
      unfold oneComp
      rcases ho : c.isOpen with _ | _
      · obtain ⟨a, b, l, hw, hl, hr, _⟩ := walk_closed ho (hp ho)
        rw [hw] at hr
        have hr' := hr.tail
        simp only [Bool.false_eq_true, if_false]
        have e1 : vtAt c 0 = .ok b := hr'.head
        rw [e1, ok_bind, hr.head, ok_bind, ← hl]
        unfold cornersOf
        rw [ho, hw]
        exact vertLoop_ok cutoff eps size i c l 0 a b st (by simpa using hr)
      · obtain ⟨a, b, l, hv⟩ : ∃ a b l, c.vt = a :: b :: l := by
          rcases h : c.vt with _ | ⟨a, _ | ⟨b, l⟩⟩
          · rw [h] at h2; simp at h2
          · rw [h] at h2; simp at h2
          · exact ⟨a, b, l, rfl⟩
        have hr := reads_vt c
        rw [hv] at hr
        simp only [if_true]
        have e1 : vtAt c 1 = .ok b := hr.tail.head
        rw [e1, ok_bind, hr.head, ok_bind]
        have hw : walk c = a :: b :: l := by unfold walk; rw [ho, if_pos rfl, hv]
        unfold cornersOf
        rw [ho, hw, hv]
        exact vertLoop_ok cutoff eps size i c l 1 a b st (by simpa using hr)
    unfold compLoop
    rw [hmain]
    unfold allCorners
    rw [visits_append]
    rcases visits cutoff eps size (cornersOf i c) st with e | st'
    · rfl
    · simp only [ok_bind]; exact hrest st'

theorem fixWrap_proper {c : Comp} (h : Proper c) : fixWrap c = c := by
  unfold fixWrap
  rcases ho : c.isOpen with _ | _
  · have := h ho
    have : decide (c.vt.length < 3) = false := by simp; omega
    rw [this]
    rcases c with ⟨o, v⟩
    simp_all
  · rcases c with ⟨o, v⟩
    simp_all

theorem minrad_ok (big cutoff eps : ℝ) (size : Option Nat) (L : Curve) (h : ∀ c ∈ L.cp, 2 ≤ c.vt.length ∧ Proper c) :
    ∃ (r : ℝ) (l : List Loc), minrad big cutoff eps size L = .ok (r, l) ∧ r ≤ big ∧ (∀ x ∈ cands (allCorners 0 L.cp), r ≤ x.mr) ∧
      (r = big ∨ ∃ x ∈ cands (allCorners 0 L.cp), r = x.mr) ∧ (∀ y ∈ l, y ∈ cands (allCorners 0 L.cp) ∧ y.mr ≤ upBound cutoff eps r) ∧
      (size = none → l = []) ∧ (∀ n, size = some n → l.length ≤ n ∧ (2 * (allCorners 0 L.cp).length ≤ n →
        l.Perm ((cands (allCorners 0 L.cp)).filter (good (upBound cutoff eps r))))) := by
  have hmap : L.cp.map fixWrap = L.cp := by
    conv_rhs => rw [← List.map_id L.cp]
    refine List.map_congr_left ?_
    intro c hc
    exact fixWrap_proper (h c hc).2
  obtain ⟨st, a1, a2, a3, a4, a5, a6⟩ := visits_ok cutoff eps size (allCorners 0 L.cp) (big, [])
  unfold minrad
  rw [hmap, compLoop_ok cutoff eps size L.cp 0 (big, []) h, a1, ok_bind]
  obtain ⟨mr, l⟩ := st
  simp only at a2 a3 a4 a5 a6 ⊢
  rcases size with _ | n
  · exact ⟨mr, [], rfl, a2, a3, a4, by simp, fun _ => rfl, fun n hn => by simp at hn⟩
  · obtain ⟨l', b1, b2⟩ := pare_ok (upBound cutoff eps mr) l
    simp only [b1, ok_bind]
    refine ⟨mr, l', rfl, a2, a3, a4, ?_, by simp, ?_⟩
    · intro y hy
      have := List.mem_filter.mp (b2.mem_iff.mp hy)
      rcases a5 y this.1 with h | h
      · simp at h
      · exact ⟨h, of_decide_eq_true this.2⟩
    · intro m hm
      cases hm
      obtain ⟨c1, c2⟩ := a6 n rfl
      refine ⟨?_, ?_⟩
      · rw [b2.length_eq]
        exact le_trans (List.length_filter_le _ _) (c1 (by simp))
      · intro h2
        have := c2 (by simpa using h2)
        rw [List.nil_append] at this
        rw [← this]; exact b2

/-! ## Geometry -/

theorem cross_norm (a b : V3) (t : ℝ) (h : IsAngle a b t) : norm3 (a.crossProd b) = apart a ⟨0, 0, 0⟩ * apart b ⟨0, 0, 0⟩ * Real.sin t := by
  have hl := lagrange a b
  have hs : 0 ≤ Real.sin t := Real.sin_nonneg_of_nonneg_of_le_pi h.nonneg h.le_pi
  have hn : norm3 (a.crossProd b) = Real.sqrt ((a.x * b.y - a.y * b.x) ^ 2 + (a.x * b.z - a.z * b.x) ^ 2 + (a.y * b.z - a.z * b.y) ^ 2) := by
    unfold norm3 V3.crossProd; congr 1; simp only; ring
  rw [← hn, h.cosine] at hl
  have h0 : 0 ≤ norm3 (a.crossProd b) := Real.sqrt_nonneg _
  have h1 : 0 ≤ apart a ⟨0, 0, 0⟩ * apart b ⟨0, 0, 0⟩ := mul_nonneg (apart_nonneg _ _) (apart_nonneg _ _)
  have h2 : norm3 (a.crossProd b) ^ 2 = (apart a ⟨0, 0, 0⟩ * apart b ⟨0, 0, 0⟩ * Real.sin t) ^ 2 := by
    have := Real.sin_sq_add_cos_sq t
    nlinarith
  exact (sq_eq_sq₀ h0 (mul_nonneg h1 hs)).mp h2

theorem rad_eq (a b : V3) (t : ℝ) (h : IsAngle a b t) (hp : 0 < apart a ⟨0, 0, 0⟩ * apart b ⟨0, 0, 0⟩ * Real.sin t) :
    (norm3 a * norm3 b + a.dot b) / (2 * norm3 (a.crossProd b)) = 1 / (2 * Real.tan (t / 2)) := by
  have hN0 : 0 ≤ apart a ⟨0, 0, 0⟩ * apart b ⟨0, 0, 0⟩ := mul_nonneg (apart_nonneg _ _) (apart_nonneg _ _)
  have hs : 0 < Real.sin t := by
    by_contra hc
    nlinarith [mul_nonneg hN0 (sub_nonneg.mpr (not_lt.mp hc))]
  have hN : 0 < apart a ⟨0, 0, 0⟩ * apart b ⟨0, 0, 0⟩ := by
    by_contra hc
    have : apart a ⟨0, 0, 0⟩ * apart b ⟨0, 0, 0⟩ = 0 := le_antisymm (not_lt.mp hc) hN0
    rw [this, zero_mul] at hp
    exact lt_irrefl _ hp
  have hdot : a.dot b = apart a ⟨0, 0, 0⟩ * apart b ⟨0, 0, 0⟩ * Real.cos t := h.cosine
  rw [norm3_eq a, norm3_eq b, cross_norm a b t h, hdot]
  obtain ⟨N, hN'⟩ : ∃ N, N = apart a ⟨0, 0, 0⟩ * apart b ⟨0, 0, 0⟩ := ⟨_, rfl⟩
  rw [← hN'] at hN ⊢
  obtain ⟨u, hu⟩ : ∃ u, u = t / 2 := ⟨_, rfl⟩
  have ht : t = 2 * u := by rw [hu]; ring
  rw [← hu, ht, Real.sin_two_mul, Real.cos_two_mul, Real.tan_eq_sin_div_cos]
  rw [ht, Real.sin_two_mul] at hs
  have hsu : Real.sin u ≠ 0 := by intro e; rw [e] at hs; simp at hs
  have hcu : Real.cos u ≠ 0 := by intro e; rw [e] at hs; simp at hs
  field_simp
  ring

/-- The locations of a corner are bends of this angle. -/
theorem locs_iff (i j : Nat) (p q r : V3) (x : Loc) : x ∈ (Corner.mk i j (q.sub p) (r.sub q)).locs ↔
    x.comp = i ∧ x.vert = j ∧ ∃ t, IsAngle (q.sub p) (r.sub q) t ∧ 1e-12 ≤ apart p q * apart q r * Real.sin t ∧
      ((x.svert = (j : Int) - 1 ∧ x.mr = apart p q / (2 * Real.tan (t / 2))) ∨ (x.svert = (j : Int) + 1 ∧ x.mr = apart q r / (2 * Real.tan (t / 2)))) := by
  have hsub1 := apart_sub_zero q p
  have hsub2 := apart_sub_zero r q
  have main : ∀ t, IsAngle (q.sub p) (r.sub q) t → 1e-12 ≤ apart p q * apart q r * Real.sin t →
      (Corner.mk i j (q.sub p) (r.sub q)).locs = [⟨i, j, (j : Int) - 1, apart p q / (2 * Real.tan (t / 2))⟩, ⟨i, j, (j : Int) + 1, apart q r / (2 * Real.tan (t / 2))⟩] := by
    intro t ht hb
    have hcn := cross_norm _ _ t ht
    rw [hsub1, hsub2] at hcn
    have hr := rad_eq _ _ t ht (by rw [hsub1, hsub2]; exact lt_of_lt_of_le (by norm_num) hb)
    unfold Corner.locs
    rw [if_pos (show Corner.counts _ = true from decide_eq_true (by simp only; rw [hcn]; exact hb))]
    unfold Corner.rad
    simp only
    rw [hr, norm3_eq, norm3_eq, hsub1, hsub2]
    simp only [mul_one_div]
  constructor
  · intro hx
    have hcount : (Corner.mk i j (q.sub p) (r.sub q)).counts = true := by
      by_contra hc
      unfold Corner.locs at hx
      rw [if_neg hc] at hx
      simp at hx
    have hge : 1e-12 ≤ norm3 ((q.sub p).crossProd (r.sub q)) := of_decide_eq_true hcount
    have hpos : 0 < apart (q.sub p) ⟨0, 0, 0⟩ * apart (r.sub q) ⟨0, 0, 0⟩ := by
      refine lt_of_le_of_ne (mul_nonneg (apart_nonneg _ _) (apart_nonneg _ _)) ?_
      intro e
      have hl := lagrange (q.sub p) (r.sub q)
      rw [← e] at hl
      have hn : norm3 ((q.sub p).crossProd (r.sub q)) = Real.sqrt (((q.sub p).x * (r.sub q).y - (q.sub p).y * (r.sub q).x) ^ 2 +
          ((q.sub p).x * (r.sub q).z - (q.sub p).z * (r.sub q).x) ^ 2 + ((q.sub p).y * (r.sub q).z - (q.sub p).z * (r.sub q).y) ^ 2) := by
        unfold norm3 V3.crossProd; congr 1; simp only; ring
      rw [← hn] at hl
      have : (0 : ℝ) < norm3 ((q.sub p).crossProd (r.sub q)) := lt_of_lt_of_le (by norm_num) hge
      nlinarith [sq_nonneg (dotOf (q.sub p) (r.sub q))]
    obtain ⟨ht, _⟩ := angle_ok _ _ hpos
    have hb : 1e-12 ≤ apart p q * apart q r * Real.sin (angle (q.sub p) (r.sub q)).1 := by
      have := cross_norm _ _ _ ht
      rw [hsub1, hsub2] at this
      rw [← this]; exact hge
    rw [main _ ht hb] at hx
    simp only [List.mem_cons, List.not_mem_nil, or_false] at hx
    rcases hx with rfl | rfl
    · exact ⟨rfl, rfl, _, ht, hb, .inl ⟨rfl, rfl⟩⟩
    · exact ⟨rfl, rfl, _, ht, hb, .inr ⟨rfl, rfl⟩⟩
  · rintro ⟨h1, h2, t, ht, hb, hx⟩
    rw [main t ht hb]
    rcases x with ⟨xc, xv, xs, xm⟩
    simp only at h1 h2 hx
    subst h1 h2
    rcases hx with ⟨rfl, rfl⟩ | ⟨rfl, rfl⟩ <;> simp

theorem mem_corners (i : Nat) : ∀ (l : List V3) (j : Nat) (k : Corner), k ∈ corners i j l ↔
    ∃ (n : Nat) (p q r : V3), l[n]? = some p ∧ l[n + 1]? = some q ∧ l[n + 2]? = some r ∧ k = ⟨i, j + n, q.sub p, r.sub q⟩ := by
  intro l
  induction l with
  | nil => intro j k; simp [corners]
  | cons a l ih =>
    intro j k
    rcases l with _ | ⟨b, _ | ⟨c, l⟩⟩
    · simp [corners]
    · simp [corners]
    · simp only [corners, List.mem_cons, ih (j + 1) k]
      constructor
      · rintro (rfl | ⟨n, p, q, r, h1, h2, h3, rfl⟩)
        · exact ⟨0, a, b, c, rfl, rfl, rfl, rfl⟩
        · exact ⟨n + 1, p, q, r, by simpa using h1, by simpa using h2, by simpa using h3, by rw [show j + (n + 1) = j + 1 + n by omega]⟩
      · rintro ⟨n, p, q, r, h1, h2, h3, rfl⟩
        rcases n with _ | n
        · simp at h1 h2 h3; subst h1 h2 h3; exact .inl rfl
        · exact .inr ⟨n, p, q, r, by simpa using h1, by simpa using h2, by simpa using h3, by rw [show j + (n + 1) = j + 1 + n by omega]⟩

theorem mem_cornersOf (i : Nat) (c : Comp) (hp : Proper c) (k : Corner) : k ∈ cornersOf i c ↔
    ∃ (v : Nat) (p q r : V3), v < c.vt.length ∧ Neighbours c v p q r ∧ k = ⟨i, v, q.sub p, r.sub q⟩ := by
  unfold cornersOf
  rw [mem_corners]
  rcases ho : c.isOpen with _ | _
  · obtain ⟨a, b, l, _, _, _, hget⟩ := walk_closed ho (hp ho)
    have h3 := hp ho
    have key : ∀ n, n < c.vt.length → (walk c)[n]? = c.vt[(((n : Nat) : Int) - 1) % (c.vt.length : Int)|>.toNat]? ∧
        (walk c)[n + 1]? = c.vt[((n : Nat) : Int) % (c.vt.length : Int)|>.toNat]? ∧ (walk c)[n + 2]? = c.vt[(((n : Nat) : Int) + 1) % (c.vt.length : Int)|>.toNat]? := by
      intro n hn
      rw [hget n (by omega), hget (n + 1) (by omega), hget (n + 2) (by omega)]
      refine ⟨?_, ?_, ?_⟩
      · congr 1
        rw [← Int.toNat_natCast ((n + (c.vt.length - 1)) % c.vt.length)]
        congr 1
        push_cast
        rw [show ((n : Int) + ((c.vt.length - 1 : Nat) : Int)) = ((n : Int) - 1) + (c.vt.length : Int) by omega, Int.add_emod_right]
      · congr 1
        rw [show n + 1 + (c.vt.length - 1) = n + c.vt.length by omega, Nat.add_mod_right]
        rw [← Int.natCast_emod, Int.toNat_natCast]
      · congr 1
        rw [show n + 2 + (c.vt.length - 1) = (n + 1) + c.vt.length by omega, Nat.add_mod_right]
        rw [show ((n : Int) + 1) = ((n + 1 : Nat) : Int) by push_cast; rfl, ← Int.natCast_emod, Int.toNat_natCast]
    have hlen : ∀ n r, (walk c)[n + 2]? = some r → n < c.vt.length := by
      intro n r h
      have h1 := (List.getElem?_eq_some_iff.mp h).1
      have h2 : (walk c).length = c.vt.length + 2 := by
        unfold walk; rw [ho]; simp only [Bool.false_eq_true, if_false, List.length_append, List.length_drop, List.length_take]; omega
      omega
    simp only [Bool.false_eq_true, if_false, zero_add]
    constructor
    · rintro ⟨n, p, q, r, h1, h2, h3, rfl⟩
      have hn := hlen n r h3
      obtain ⟨k1, k2, k3⟩ := key n hn
      refine ⟨n, p, q, r, hn, ?_, rfl⟩
      unfold Neighbours
      rw [ho]
      simp only [Bool.false_eq_true, if_false]
      exact ⟨by rw [← k1, h1], by rw [← k2, h2], by rw [← k3, h3]⟩
    · rintro ⟨n, p, q, r, hn, hnb, rfl⟩
      obtain ⟨k1, k2, k3⟩ := key n hn
      unfold Neighbours at hnb
      rw [ho] at hnb
      simp only [Bool.false_eq_true, if_false] at hnb
      exact ⟨n, p, q, r, by rw [k1, hnb.1], by rw [k2, hnb.2.1], by rw [k3, hnb.2.2], rfl⟩
  · have hw : walk c = c.vt := by unfold walk; rw [ho]; rfl
    rw [hw]
    simp only [if_true]
    constructor
    · rintro ⟨n, p, q, r, h1, h2, h3, rfl⟩
      have := (List.getElem?_eq_some_iff.mp h2).1
      refine ⟨1 + n, p, q, r, by omega, ?_, rfl⟩
      unfold Neighbours
      rw [ho, if_pos rfl]
      exact ⟨n, by push_cast; ring, h1, h2, h3⟩
    · rintro ⟨v, p, q, r, hn, hnb, rfl⟩
      unfold Neighbours at hnb
      rw [ho, if_pos rfl] at hnb
      obtain ⟨n, hv, h1, h2, h3⟩ := hnb
      exact ⟨n, p, q, r, h1, h2, h3, by rw [show v = 1 + n by omega]⟩

theorem mem_allCorners : ∀ (cs : List Comp) (i : Nat) (k : Corner), k ∈ allCorners i cs ↔ ∃ (n : Nat) (c : Comp), cs[n]? = some c ∧ k ∈ cornersOf (i + n) c := by
  intro cs
  induction cs with
  | nil => intro i k; simp [allCorners]
  | cons c cs ih =>
    intro i k
    simp only [allCorners, List.mem_append, ih (i + 1) k]
    constructor
    · rintro (h | ⟨n, c', h1, h2⟩)
      · exact ⟨0, c, rfl, h⟩
      · exact ⟨n + 1, c', by simpa using h1, by rw [show i + (n + 1) = i + 1 + n by omega]; exact h2⟩
    · rintro ⟨n, c', h1, h2⟩
      rcases n with _ | n
      · simp at h1; subst h1; exact .inl h2
      · exact .inr ⟨n, c', by simpa using h1, by rw [show i + (n + 1) = i + 1 + n by omega] at h2; exact h2⟩

/-- The locations are the bends. -/
theorem mem_cands (L : Curve) (h : ∀ c ∈ L.cp, Proper c) (x : Loc) : x ∈ cands (allCorners 0 L.cp) ↔ BendOf L x.comp x.vert x.svert x.mr := by
  unfold cands BendOf Bend
  rw [List.mem_flatMap]
  constructor
  · rintro ⟨k, hk, hx⟩
    obtain ⟨n, c, hc, hkc⟩ := (mem_allCorners L.cp 0 k).mp hk
    obtain ⟨v, p, q, r, hv, hn, rfl⟩ := (mem_cornersOf _ c (h c (List.mem_of_getElem? hc)) k).mp hkc
    obtain ⟨h1, h2, t, ht, hb, hm⟩ := (locs_iff _ _ p q r x).mp hx
    rw [h1, h2, zero_add]
    exact ⟨c, hc, p, q, r, t, hv, hn, ht, hb, hm⟩
  · rintro ⟨c, hc, p, q, r, t, hv, hn, ht, hb, hm⟩
    refine ⟨⟨x.comp, x.vert, q.sub p, r.sub q⟩, ?_, (locs_iff _ _ p q r x).mpr ⟨rfl, rfl, t, ht, hb, hm⟩⟩
    refine (mem_allCorners L.cp 0 _).mpr ⟨x.comp, c, hc, ?_⟩
    rw [zero_add]
    exact (mem_cornersOf _ c (h c (List.mem_of_getElem? hc)) _).mpr ⟨x.vert, p, q, r, hv, hn, rfl⟩

/-! ## No location twice -/

theorem corners_sorted (i : Nat) : ∀ (l : List V3) (j : Nat), (corners i j l).Pairwise (fun a b => a.j < b.j) := by
  intro l
  induction l with
  | nil => intro j; exact List.Pairwise.nil
  | cons a l ih =>
    intro j
    rcases l with _ | ⟨b, _ | ⟨c, l⟩⟩
    · exact List.Pairwise.nil
    · exact List.Pairwise.nil
    · simp only [corners]
      refine List.Pairwise.cons ?_ (ih (j + 1))
      intro k hk
      obtain ⟨n, p, q, r, _, _, _, rfl⟩ := (mem_corners i _ _ k).mp hk
      simp only; omega

theorem corners_comp {i j : Nat} {l : List V3} {k : Corner} (h : k ∈ corners i j l) : k.i = i := by
  obtain ⟨n, p, q, r, _, _, _, rfl⟩ := (mem_corners i _ _ k).mp h
  rfl

theorem allCorners_sorted : ∀ (cs : List Comp) (i : Nat), (allCorners i cs).Pairwise (fun a b => ¬ (a.i = b.i ∧ a.j = b.j)) := by
  intro cs
  induction cs with
  | nil => intro i; exact List.Pairwise.nil
  | cons c cs ih =>
    intro i
    simp only [allCorners]
    refine List.pairwise_append.mpr ⟨?_, ih (i + 1), ?_⟩
    · refine (corners_sorted i (walk c) _).imp ?_
      intro a b h e; omega
    · intro a ha b hb e
      have h1 := corners_comp ha
      obtain ⟨n, c', _, hb'⟩ := (mem_allCorners cs (i + 1) b).mp hb
      have h2 := corners_comp hb'
      omega

theorem cands_nodup (cs : List Comp) : (cands (allCorners 0 cs)).Nodup := by
  unfold cands
  rw [List.nodup_flatMap]
  refine ⟨?_, (allCorners_sorted cs 0).imp ?_⟩
  · intro k _
    unfold Corner.locs
    split
    · rw [List.nodup_cons]
      refine ⟨?_, List.nodup_singleton _⟩
      intro h
      have := congrArg Loc.svert (List.mem_singleton.mp h)
      simp only at this
      omega
    · exact List.nodup_nil
  · intro a b hab
    refine List.disjoint_left.mpr ?_
    intro x hx hy
    have key : ∀ k : Corner, x ∈ k.locs → x.comp = k.i ∧ x.vert = k.j := by
      intro k hk
      unfold Corner.locs at hk
      split at hk
      · simp only [List.mem_cons, List.not_mem_nil, or_false] at hk
        rcases hk with rfl | rfl <;> exact ⟨rfl, rfl⟩
      · simp at hk
    obtain ⟨a1, a2⟩ := key a hx
    obtain ⟨b1, b2⟩ := key b hy
    exact hab ⟨by rw [← a1, b1], by rw [← a2, b2]⟩

theorem corners_length (i : Nat) : ∀ (l : List V3) (j : Nat), (corners i j l).length = l.length - 2 := by
  intro l
  induction l with
  | nil => intro j; rfl
  | cons a l ih =>
    intro j
    rcases l with _ | ⟨b, _ | ⟨c, l⟩⟩
    · rfl
    · rfl
    · simp only [corners, List.length_cons, ih (j + 1)]; omega

theorem allCorners_length : ∀ (cs : List Comp) (i : Nat), (allCorners i cs).length ≤ (cs.map fun c => c.vt.length).sum := by
  intro cs
  induction cs with
  | nil => intro i; exact le_refl _
  | cons c cs ih =>
    intro i
    simp only [allCorners, List.length_append, List.map_cons, List.sum_cons]
    have h1 := ih (i + 1)
    have h2 : (cornersOf i c).length ≤ c.vt.length := by
      unfold cornersOf
      rw [corners_length]
      unfold walk
      split
      · omega
      · simp only [List.length_append, List.length_drop, List.length_take]; omega
    omega

end Plc.Minrad
