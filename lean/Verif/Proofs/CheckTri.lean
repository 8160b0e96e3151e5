import Verif.Model.Polytope
import Verif.Spec.Embed
import Verif.Proofs.Basic
import Verif.Proofs.Std
import Mathlib.Data.List.Perm.Subperm
import Mathlib.Data.List.Nodup

/-! # Checking triangulations: lemmas -/

namespace Plc.Embed

open Plc.Core Plc.Tri

/-- The daughters of triangle `s`. -/
def dau (T : Triangulation) (s : Nat) : List Nat :=
  match T.triangles[s]? with
  | none => []
  | some t => t.t0.toList ++ t.t1.toList

/-- A triangle at a diagonal whose sides fit. -/
def GoodSides (T : Triangulation) (n s : Nat) : Prop :=
  ∃ (t : Triangle) (u v w k : Nat), T.triangles[s]? = some t ∧ t.parent = ⟨true, k⟩ ∧ T.diags[k]? = some (u, w) ∧ ends T t.d0 = some (u, v) ∧
    ends T t.d1 = some (v, w) ∧ u < n ∧ v < n ∧ w < n

theorem behind_ends {T : Triangulation} {c : CRef} {s : Option Nat} {u w : Nat} {xs : List Nat} {cs : List CRef} (h : Behind T c s u w xs cs) : ends T c = some (u, w) := by
  cases h with
  | edge k u w h => exact h
  | diag k u v w s t xs ys cs ds h => exact h

theorem length_of_ends {T : Triangulation} {el dl : List ℝ} (h1 : el.length = T.edges.length) (h2 : dl.length = T.diags.length) {c : CRef} {p : Chord}
    (h : ends T c = some p) : chordLength dl el c = .ok (lengthOf el dl c) := by
  unfold ends at h
  unfold chordLength lengthOf
  split at h
  · rename_i hc
    have hl := (List.getElem?_eq_some_iff.mp h).1
    rw [if_pos hc, if_pos hc, List.getElem?_eq_getElem (by omega), rd_lt (by omega)]
    rfl
  · rename_i hc
    have hl := (List.getElem?_eq_some_iff.mp h).1
    rw [if_neg hc, if_neg hc, List.getElem?_eq_getElem (by omega), rd_lt (by omega)]
    rfl

/-- What a walk at `s`, if there is a triangle, comes to. -/
def visitO {σ : Type} (T : Triangulation) (step : Triangle → σ → Res σ) (f : Nat) : Option Nat → σ → Res σ
  | none, x => .ok x
  | some s, x => visit T step f s x

noncomputable def okO (T : Triangulation) (el dl : List ℝ) (f : Nat) : Option Nat → Res Bool
  | none => .ok true
  | some s => okWorker T el dl f s

theorem visit_succ {σ : Type} (T : Triangulation) (step : Triangle → σ → Res σ) (f tri : Nat) (x : σ) {t : Triangle} (h : T.triangles[tri]? = some t) :
    visit T step (f + 1) tri x = (do let x ← step t x; let x ← visitO T step f t.t0 x; visitO T step f t.t1 x) := by
  unfold visit
  rw [rd_eq_ok.mpr h, ok_bind]
  cases t.t0 <;> cases t.t1 <;> rfl

/-- All of them close. -/
def AllClose (T : Triangulation) (el dl : List ℝ) (ts : List Nat) : Prop := ∀ i ∈ ts, ∀ t, T.triangles[i]? = some t → Closes el dl t

open Classical in
theorem ok_succ (T : Triangulation) {el dl : List ℝ} (h1 : el.length = T.edges.length) (h2 : dl.length = T.diags.length) (f tri : Nat) {t : Triangle} {p q r : Chord}
    (h : T.triangles[tri]? = some t) (hp : ends T t.parent = some p) (hq : ends T t.d0 = some q) (hr : ends T t.d1 = some r) {ts1 ts2 : List Nat}
    (o1 : okO T el dl f t.t0 = .ok (decide (AllClose T el dl ts1))) (o2 : okO T el dl f t.t1 = .ok (decide (AllClose T el dl ts2))) :
    okWorker T el dl (f + 1) tri = .ok (decide (AllClose T el dl (tri :: (ts1 ++ ts2)))) := by
  have key : AllClose T el dl (tri :: (ts1 ++ ts2)) ↔ Closes el dl t ∧ AllClose T el dl ts1 ∧ AllClose T el dl ts2 := by
    unfold AllClose
    constructor
    · intro hh
      exact ⟨hh tri (by simp) t h, fun i hi => hh i (by simp [hi]), fun i hi => hh i (by simp [hi])⟩
    · rintro ⟨a, b, c⟩ i hi t' ht'
      rcases List.mem_cons.mp hi with rfl | hi
      · rw [h] at ht'; cases ht'; exact a
      · rcases List.mem_append.mp hi with hi | hi
        · exact b i hi t' ht'
        · exact c i hi t' ht'
  have hc : Closes el dl t ↔ ¬ (lengthOf el dl t.parent + lengthOf el dl t.d0 < lengthOf el dl t.d1 ∨ lengthOf el dl t.d0 + lengthOf el dl t.d1 < lengthOf el dl t.parent ∨
      lengthOf el dl t.d1 + lengthOf el dl t.parent < lengthOf el dl t.d0) := by
    unfold Closes
    push Not
    tauto
  have e : okWorker T el dl (f + 1) tri = (do
      let t ← rd T.triangles tri
      let a ← chordLength dl el t.parent
      let b ← chordLength dl el t.d0
      let c ← chordLength dl el t.d1
      if a + b < c ∨ b + c < a ∨ c + a < b then .ok false
      else do
        let r ← okO T el dl f t.t0
        if !r then .ok false else okO T el dl f t.t1) := rfl
  rw [e, rd_eq_ok.mpr h, ok_bind, length_of_ends h1 h2 hp, ok_bind, length_of_ends h1 h2 hq, ok_bind, length_of_ends h1 h2 hr, ok_bind]
  split
  · rename_i hbad
    rw [decide_eq_false (fun hh => hc.mp (key.mp hh).1 hbad)]
  · rename_i hgood
    have c1 := hc.mpr hgood
    rw [o1, ok_bind]
    by_cases a1 : AllClose T el dl ts1
    · rw [decide_eq_true a1, if_neg (by simp), o2]
      congr 1
      rw [decide_eq_decide, key]
      exact ⟨fun hh => ⟨c1, a1, hh⟩, fun hh => hh.2.2⟩
    · rw [decide_eq_false a1, if_pos (by simp), decide_eq_false (fun hh => a1 (key.mp hh).2.1)]

theorem foldlM_append_ok {σ : Type} {g : σ → Nat → Res σ} (l1 l2 : List Nat) (x : σ) : (l1 ++ l2).foldlM g x = (do let y ← l1.foldlM g x; l2.foldlM g y) := by
  rw [List.foldlM_append]

open Classical in
theorem behind_list {T : Triangulation} {n : Nat} {c : CRef} {s : Option Nat} {u w : Nat} {xs : List Nat} {cs : List CRef} (h : Behind T c s u w xs cs) :
    u < n → w < n → (∀ x ∈ xs, x < n) →
    ∃ ts : List Nat, ts.map (fun s => (T.triangles[s]?).map (·.parent)) = (cs.filter (·.diag)).map some ∧ ts.length = xs.length ∧ (∀ s ∈ ts, GoodSides T n s) ∧
      (s.toList ++ ts.flatMap (dau T)).Perm ts ∧ (∀ c' ∈ cs, ∃ x y, ends T c' = some (x, y) ∧ x < n ∧ y < n) ∧
      (∀ (σ : Type) (step : Triangle → σ → Res σ) (f : Nat) (x : σ), xs.length ≤ f →
        visitO T step f s x = ts.foldlM (fun x i => do let t ← rd T.triangles i; step t x) x) ∧
      ∀ (el dl : List ℝ) (f : Nat), el.length = T.edges.length → dl.length = T.diags.length → xs.length ≤ f → okO T el dl f s = .ok (decide (AllClose T el dl ts)) := by
  induction h with
  | edge k u w h =>
    intro hu hw _
    refine ⟨[], by simp, rfl, by simp, by simp, ?_, fun _ _ _ _ _ => rfl, fun _ _ _ _ _ _ => by
      rw [decide_eq_true (by unfold AllClose; simp)]; rfl⟩
    intro c' hc
    rw [List.mem_singleton] at hc
    exact ⟨u, w, by rw [hc]; exact h, hu, hw⟩
  | diag k u v w s t xs ys cs ds h1 h2 h3 b1 b2 ih1 ih2 =>
    intro hu hw hx
    have hv : v < n := hx v (by simp)
    obtain ⟨t1, p1, p2, p3, p4, p5, p6, p7⟩ := ih1 hu hv (fun x h => hx x (by simp [h]))
    obtain ⟨t2, q1, q2, q3, q4, q5, q6, q7⟩ := ih2 hv hw (fun x h => hx x (by simp [h]))
    refine ⟨s :: (t1 ++ t2), ?_, ?_, ?_, ?_, ?_, ?_, ?_⟩
    · rw [List.map_cons, List.map_append, p1, q1, h2, List.filter_cons]
      simp [h3]
    · simp only [List.length_cons, List.length_append]; omega
    · intro x hx'
      rcases List.mem_cons.mp hx' with rfl | hx'
      · exact ⟨t, u, v, w, k, h2, h3, h1, behind_ends b1, behind_ends b2, hu, hv, hw⟩
      · rcases List.mem_append.mp hx' with hx' | hx'
        · exact p3 x hx'
        · exact q3 x hx'
    · have hd : dau T s = t.t0.toList ++ t.t1.toList := by unfold dau; rw [h2]
      rw [List.flatMap_cons, List.flatMap_append, hd]
      simp only [Option.toList_some, List.singleton_append]
      refine List.Perm.cons _ ?_
      rw [List.perm_iff_count] at p4 q4 ⊢
      intro a
      have := p4 a
      have := q4 a
      simp only [List.count_append] at *
      omega
    · intro c' hc
      rcases List.mem_cons.mp hc with rfl | hc
      · exact ⟨u, w, h1, hu, hw⟩
      · rcases List.mem_append.mp hc with hc | hc
        · exact p5 c' hc
        · exact q5 c' hc
    · intro σ step f x hf
      simp only [List.length_append, List.length_cons] at hf
      obtain ⟨f, rfl⟩ : ∃ g, f = g + 1 := ⟨f - 1, by omega⟩
      show visit T step (f + 1) s x = _
      rw [visit_succ T step f s x h2, List.foldlM_cons, rd_eq_ok.mpr h2, ok_bind]
      congr 1
      funext y
      rw [foldlM_append_ok, p6 σ step f y (by omega)]
      congr 1
      funext z
      exact q6 σ step f z (by omega)
    · intro el dl f e1 e2 hf
      simp only [List.length_append, List.length_cons] at hf
      obtain ⟨f, rfl⟩ : ∃ g, f = g + 1 := ⟨f - 1, by omega⟩
      exact ok_succ T e1 e2 f s h2 (p := (u, w)) (by rw [h3]; exact h1) (behind_ends b1) (behind_ends b2) (p7 el dl f e1 e2 (by omega)) (q7 el dl f e1 e2 (by omega))

theorem vert_of_ends {T : Triangulation} {c : CRef} {p : Chord} (b : Bool) (h : ends T c = some p) : vertChord T b c = .ok (if b then p.2 else p.1) := by
  unfold ends at h
  unfold vertChord
  split at h
  · rename_i hc
    have hl := (List.getElem?_eq_some_iff.mp h).1
    rw [if_pos hc, show assertC (decide (c.num ≤ T.diags.length)) = .ok () by rw [decide_eq_true (by omega)]; rfl, ok_bind, rd_eq_ok.mpr h, ok_bind]
  · rename_i hc
    have hl := (List.getElem?_eq_some_iff.mp h).1
    rw [if_neg hc, show assertC (decide (c.num ≤ T.edges.length)) = .ok () by rw [decide_eq_true (by omega)]; rfl, ok_bind, rd_eq_ok.mpr h, ok_bind]

theorem chordOk_of_ends {T : Triangulation} {c : CRef} {x y : Nat} (h : ends T c = some (x, y)) (hx : x < T.edges.length) (hy : y < T.edges.length) : chordOk T c = true := by
  unfold ends at h
  unfold chordOk
  have : (if c.diag = true then T.diags else T.edges)[c.num]? = some (x, y) := by
    rw [← h]; split <;> rfl
  rw [this]
  simp [hx, hy]

/-- A triangle whose sides fit: those of triangle 0 are seen from the other side. -/
def SidesFit (T : Triangulation) (i : Nat) (t : Triangle) : Prop :=
  ∃ u v w, ends T t.parent = some (if i = 0 then (w, u) else (u, w)) ∧ ends T t.d0 = some (u, v) ∧ ends T t.d1 = some (v, w) ∧
    u < T.edges.length ∧ v < T.edges.length ∧ w < T.edges.length

theorem sidesOk_of {T : Triangulation} {i : Nat} {t : Triangle} (h : SidesFit T i t) : sidesOk T i t = .ok true := by
  obtain ⟨u, v, w, h1, h2, h3, _, _, _⟩ := h
  unfold sidesOk
  rw [vert_of_ends _ h1, ok_bind, vert_of_ends _ h2, ok_bind, if_neg (by by_cases h : i = 0 <;> simp [h]), vert_of_ends _ h2, ok_bind, vert_of_ends _ h3, ok_bind,
    if_neg (by simp), vert_of_ends _ h1, ok_bind, vert_of_ends _ h3, ok_bind]
  congr 1
  by_cases h : i = 0 <;> simp [h]

/-- `dof` says who is a daughter of a triangle before. -/
def Marks (dof : List (Option Nat)) (D : List Nat) : Prop := ∀ s, s < dof.length → ((dof[s]?).getD none).isSome = decide (s ∈ D)

theorem enter_ok {N i : Nat} {o : Option Nat} {dof : List (Option Nat)} {D : List Nat} (hl : dof.length = N) (hm : Marks dof D) (hn : (D ++ o.toList).Nodup)
    (hb : ∀ s, o = some s → s < N) : ∃ dof', enterDaughter N i o dof = .ok (some dof') ∧ dof'.length = N ∧ Marks dof' (D ++ o.toList) := by
  cases o with
  | none => exact ⟨dof, rfl, hl, by simpa using hm⟩
  | some s =>
    have hs := hb s rfl
    have hs' : s < dof.length := by omega
    have hD : s ∉ D := by
      intro h
      rw [List.nodup_append] at hn
      exact hn.2.2 s h s (by simp) rfl
    have hg := hm s hs'
    rw [List.getElem?_eq_getElem hs', Option.getD_some, decide_eq_false hD] at hg
    refine ⟨dof.set s (some i), ?_, by rw [List.length_set]; exact hl, ?_⟩
    · unfold enterDaughter
      simp only
      rw [if_neg (by omega), rd_lt hs', ok_bind, if_neg (by rw [hg]; simp), wr_lt hs', ok_bind]
    · intro x hx
      rw [List.length_set] at hx
      rw [List.getElem?_set]
      by_cases h : s = x
      · subst h
        rw [if_pos rfl, if_pos hs']
        simp
      · rw [if_neg h, hm x hx]
        have : x ≠ s := fun e => h e.symm
        simp [this]

theorem dau_get {T : Triangulation} {i : Nat} {t : Triangle} (h : T.triangles[i]? = some t) : dau T i = t.t0.toList ++ t.t1.toList := by
  unfold dau; rw [h]

theorem triOk_of {T : Triangulation} {i : Nat} {t : Triangle} {dof : List (Option Nat)} {D : List Nat} (hl : dof.length = T.triangles.length) (hm : Marks dof D)
    (hf : SidesFit T i t) (hn : (D ++ (t.t0.toList ++ t.t1.toList)).Nodup) (hb : ∀ s ∈ t.t0.toList ++ t.t1.toList, s < T.triangles.length) :
    ∃ dof', triOk T i t dof = .ok (some dof') ∧ dof'.length = T.triangles.length ∧ Marks dof' (D ++ (t.t0.toList ++ t.t1.toList)) := by
  rw [← List.append_assoc] at hn ⊢
  have hs := sidesOk_of hf
  obtain ⟨u, v, w, h1, h2, h3, hu, hv, hw⟩ := hf
  obtain ⟨d1, a1, a2, a3⟩ := enter_ok (i := i) hl hm (List.Nodup.of_append_left hn) (fun s h => hb s (by rw [h]; simp))
  obtain ⟨d2, b1, b2, b3⟩ := enter_ok (i := i) a2 a3 hn (fun s h => hb s (by rw [h]; simp))
  refine ⟨d2, ?_, b2, b3⟩
  unfold triOk
  have c1 : chordOk T t.parent = true := by
    split at h1
    · exact chordOk_of_ends h1 hw hu
    · exact chordOk_of_ends h1 hu hw
  rw [c1, chordOk_of_ends h2 hu hv, chordOk_of_ends h3 hv hw]
  simp only [Bool.not_true, Bool.false_eq_true, if_false]
  rw [a1, ok_bind]
  simp only
  rw [b1, ok_bind]
  simp only
  rw [hs, ok_bind]
  simp

theorem triLoop_ok {T : Triangulation} : ∀ (ts : List Triangle) (i : Nat) (dof : List (Option Nat)) (D : List Nat), dof.length = T.triangles.length → Marks dof D →
    (∀ (k : Nat) (t : Triangle), ts[k]? = some t → SidesFit T (i + k) t) → (D ++ ts.flatMap (fun t => t.t0.toList ++ t.t1.toList)).Nodup →
    (∀ s ∈ ts.flatMap (fun t => t.t0.toList ++ t.t1.toList), s < T.triangles.length) →
    ∃ dof', triLoop T ts i dof = .ok (some dof') ∧ dof'.length = T.triangles.length ∧ Marks dof' (D ++ ts.flatMap (fun t => t.t0.toList ++ t.t1.toList))
  | [], i, dof, D, hl, hm, _, _, _ => ⟨dof, rfl, hl, by simpa using hm⟩
  | t :: ts, i, dof, D, hl, hm, hf, hn, hb => by
    rw [List.flatMap_cons, ← List.append_assoc] at hn
    rw [List.flatMap_cons] at hb
    obtain ⟨d1, a1, a2, a3⟩ := triOk_of hl hm (hf 0 t rfl) (List.Nodup.of_append_left hn) (fun s h => hb s (by rw [List.mem_append]; exact .inl h))
    obtain ⟨d2, b1, b2, b3⟩ := triLoop_ok ts (i + 1) d1 _ a2 a3 (fun k t' h => by
      have := hf (k + 1) t' (by simpa using h)
      rwa [show i + (k + 1) = i + 1 + k by omega] at this) hn (fun s h => hb s (by rw [List.mem_append]; exact .inr h))
    refine ⟨d2, ?_, b2, ?_⟩
    · unfold triLoop
      rw [Nat.add_zero] at a1
      rw [a1, ok_bind]
      exact b1
    · rw [List.flatMap_cons, ← List.append_assoc]; exact b3

theorem flatMap_range (T : Triangulation) : T.triangles.flatMap (fun t => t.t0.toList ++ t.t1.toList) = (List.range T.triangles.length).flatMap (dau T) := by
  have : T.triangles.map (fun t => t.t0.toList ++ t.t1.toList) = (List.range T.triangles.length).map (dau T) := by
    apply List.ext_getElem?
    intro i
    rw [List.getElem?_map, List.getElem?_map]
    rcases Nat.lt_or_ge i T.triangles.length with h | h
    · rw [List.getElem?_range h, List.getElem?_eq_getElem h]
      simp [dau, List.getElem?_eq_getElem h]
    · rw [List.getElem?_eq_none h, List.getElem?_eq_none (by simpa using h)]
      rfl
  rw [List.flatMap_def, List.flatMap_def, this]

theorem countP_one {dof : List (Option Nat)} (h : ∀ s, s < dof.length → s ≠ 0 → ((dof[s]?).getD none).isSome = true) : dof.countP (fun x => x.isNone) ≤ 1 := by
  rcases dof with _ | ⟨x, dof⟩
  · simp
  · rw [List.countP_cons]
    have : dof.countP (fun x => x.isNone) = 0 := by
      rw [List.countP_eq_zero]
      intro a ha
      obtain ⟨k, hk, rfl⟩ := List.getElem_of_mem ha
      have := h (k + 1) (by simpa using hk) (by omega)
      rw [List.getElem?_cons_succ, List.getElem?_eq_getElem hk, Option.getD_some] at this
      cases h' : dof[k] <;> simp_all
    rw [this]
    split <;> omega

open Classical in
theorem proper_walk {T : Triangulation} (h : Proper T) : T.diags.length + 3 = T.edges.length ∧ triangulationOk T = .ok true ∧
    (∀ (i : Nat) (t' : Triangle), T.triangles[i]? = some t' → SidesFit T i t') ∧ ∃ ts : List Nat, ts.Perm (List.range T.triangles.length) ∧
      (∀ (σ : Type) (step : Triangle → σ → Res σ) (x : σ), visit T step T.triangles.length 0 x = ts.foldlM (fun x i => do let t ← rd T.triangles i; step t x) x) ∧
      ∀ (el dl : List ℝ), el.length = T.edges.length → dl.length = T.diags.length → okWorker T el dl T.triangles.length 0 = .ok (decide (AllClose T el dl ts)) := by
  obtain ⟨he, hcount, t, a, b, c, k, xs, ys, cs, ds, r1, r2, r3, r4, r5, r6, r7, r8, r9⟩ := h
  obtain ⟨n, hn⟩ : ∃ n, n = T.edges.length := ⟨_, rfl⟩
  have hmem : ∀ i, i ∈ a :: b :: (xs ++ c :: ys) → i < T.edges.length := fun i hi => (r7 i).mp hi
  have ha := hmem a (by simp)
  have hb := hmem b (by simp)
  have hc := hmem c (by simp)
  obtain ⟨t1, p1, p2, p3, p4, p5, p6, p7⟩ := behind_list r4 hb hc (fun x h => hmem x (by simp [h]))
  obtain ⟨t2, q1, q2, q3, q4, q5, q6, q7⟩ := behind_list r5 hc ha (fun x h => hmem x (by simp [h]))
  have hlen : (a :: b :: (xs ++ c :: ys)).length = T.edges.length := by
    have : (a :: b :: (xs ++ c :: ys)).Perm (List.range T.edges.length) := by
      rw [List.perm_ext_iff_of_nodup r6 List.nodup_range]
      intro i; rw [r7 i, List.mem_range]
    rw [this.length_eq, List.length_range]
  simp only [List.length_cons, List.length_append] at hlen
  have hmap : (t1 ++ t2).map (fun s => (T.triangles[s]?).map (·.parent)) = ((cs ++ ds).filter (·.diag)).map some := by
    rw [List.map_append, p1, q1, List.filter_append, List.map_append]
  have hfn : ((cs ++ ds).filter (·.diag)).Nodup := List.Nodup.filter _ (List.nodup_cons.mp r8).2
  have htn : (t1 ++ t2).Nodup := by
    refine List.Nodup.of_map (fun s => (T.triangles[s]?).map (·.parent)) ?_
    rw [hmap]
    exact List.Nodup.map (Option.some_injective _) hfn
  have hgood : ∀ s ∈ t1 ++ t2, GoodSides T T.edges.length s := by
    intro s hs
    rcases List.mem_append.mp hs with h | h
    · exact p3 s h
    · exact q3 s h
  have h0 : 0 ∉ t1 ++ t2 := by
    intro h
    obtain ⟨t', _, _, _, k', g1, g2, _⟩ := hgood 0 h
    rw [r1] at g1; cases g1
    rw [r2] at g2; cases g2
  have hall : (0 :: (t1 ++ t2)).Perm (List.range T.triangles.length) := by
    refine List.Subperm.perm_of_length_le ?_ ?_
    · refine List.Nodup.subperm (List.nodup_cons.mpr ⟨h0, htn⟩) ?_
      intro s hs
      rw [List.mem_range]
      rcases List.mem_cons.mp hs with rfl | hs
      · exact (List.getElem?_eq_some_iff.mp r1).1
      · obtain ⟨t', _, _, _, k', g1, _⟩ := hgood s hs
        exact (List.getElem?_eq_some_iff.mp g1).1
    · rw [List.length_range, List.length_cons, List.length_append]; omega
  have hdau : (T.triangles.flatMap (fun t => t.t0.toList ++ t.t1.toList)).Perm (t1 ++ t2) := by
    rw [flatMap_range]
    refine (List.Perm.flatMap_right (dau T) hall.symm).trans ?_
    rw [List.flatMap_cons, List.flatMap_append, dau_get r1]
    rw [List.perm_iff_count] at p4 q4 ⊢
    intro x
    have := p4 x
    have := q4 x
    simp only [List.count_append] at *
    omega
  have hdiags : T.diags.length + 3 = T.edges.length := by
    have h1 : ((cs ++ ds).filter (·.diag)).Perm ((List.range T.diags.length).map (fun i => (⟨true, i⟩ : CRef))) := by
      rw [List.perm_ext_iff_of_nodup hfn (List.Nodup.map (fun _ _ h => by cases h; rfl) List.nodup_range)]
      intro x
      rw [List.mem_filter, List.mem_map]
      constructor
      · rintro ⟨hx, hd⟩
        have : ∃ u w, ends T x = some (u, w) ∧ u < T.edges.length ∧ w < T.edges.length := by
          rcases List.mem_append.mp hx with h | h
          · exact p5 x h
          · exact q5 x h
        obtain ⟨u, w, e, _, _⟩ := this
        obtain ⟨d, i⟩ := x
        simp only at hd
        subst hd
        exact ⟨i, by rw [List.mem_range]; exact (List.getElem?_eq_some_iff.mp e).1, rfl⟩
      · rintro ⟨i, hi, rfl⟩
        rw [List.mem_range] at hi
        have := r9 ⟨true, i⟩ T.diags[i] (List.getElem?_eq_getElem hi)
        rcases List.mem_cons.mp this with h | h
        · cases h
        · exact ⟨h, rfl⟩
    have h2 := h1.length_eq
    have h3 := congrArg List.length hmap
    simp only [List.length_map, List.length_append, List.length_range] at h2 h3
    omega
  have hN : T.triangles.length = (T.triangles.length - 1) + 1 := by
    have := (List.getElem?_eq_some_iff.mp r1).1
    omega
  have hwalk : ∀ (σ : Type) (step : Triangle → σ → Res σ) (x : σ),
      visit T step T.triangles.length 0 x = (0 :: (t1 ++ t2)).foldlM (fun x i => do let t ← rd T.triangles i; step t x) x := by
    intro σ step x
    rw [hN, visit_succ T step _ 0 x r1, List.foldlM_cons, rd_eq_ok.mpr r1, ok_bind]
    congr 1
    funext y
    rw [foldlM_append_ok, p6 σ step _ y (by omega)]
    congr 1
    funext z
    exact q6 σ step _ z (by omega)
  have hokw : ∀ (el dl : List ℝ), el.length = T.edges.length → dl.length = T.diags.length →
      okWorker T el dl T.triangles.length 0 = .ok (decide (AllClose T el dl (0 :: (t1 ++ t2)))) := by
    intro el dl e1 e2
    rw [hN]
    exact ok_succ T e1 e2 _ 0 r1 (p := (a, b)) (by rw [r2]; exact r3) (behind_ends r4) (behind_ends r5) (p7 el dl _ e1 e2 (by omega)) (q7 el dl _ e1 e2 (by omega))
  refine ⟨hdiags, ?_⟩
  have hends : ∀ (x : CRef) (p : Chord), ends T x = some p → chordOk T x = true := by
    intro x p hx
    rcases List.mem_cons.mp (r9 x p hx) with h | h
    · rw [h]; exact chordOk_of_ends r3 ha hb
    · have : ∃ u w, ends T x = some (u, w) ∧ u < T.edges.length ∧ w < T.edges.length := by
        rcases List.mem_append.mp h with h | h
        · exact p5 x h
        · exact q5 x h
      obtain ⟨u, w, e, e1, e2⟩ := this
      exact chordOk_of_ends e e1 e2
  have hfits : ∀ (i : Nat) (t' : Triangle), T.triangles[i]? = some t' → SidesFit T i t' := by
    intro i t' ht
    have hi : i ∈ 0 :: (t1 ++ t2) := by
      rw [hall.mem_iff, List.mem_range]; exact (List.getElem?_eq_some_iff.mp ht).1
    by_cases h : i = 0
    · subst h
      rw [r1] at ht; cases ht
      refine ⟨b, c, a, ?_, behind_ends r4, behind_ends r5, hb, hc, ha⟩
      rw [if_pos rfl, r2]; exact r3
    · obtain ⟨t'', u, v, w, k', g1, g2, g3, g4, g5, g6, g7, g8⟩ := hgood i (by
        rcases List.mem_cons.mp hi with h' | h'
        · exact absurd h' h
        · exact h')
      rw [g1] at ht; cases ht
      refine ⟨u, v, w, ?_, g4, g5, g6, g7, g8⟩
      rw [if_neg h, g2]; exact g3
  obtain ⟨dof, l1, l2, l3⟩ := triLoop_ok (T := T) T.triangles 0 (List.replicate T.triangles.length none) [] (by simp) (by
      intro s hs
      rw [List.length_replicate] at hs
      rw [List.getElem?_replicate, if_pos hs]
      simp) (fun k t' h => by rw [Nat.zero_add]; exact hfits k t' h) (by
      rw [List.nil_append]; exact hdau.nodup_iff.mpr htn) (by
      intro s hs
      have := hdau.mem_iff.mp hs
      have : s ∈ 0 :: (t1 ++ t2) := by simp only [List.mem_cons]; exact .inr this
      rw [hall.mem_iff, List.mem_range] at this
      exact this)
  refine ⟨?_, hfits, 0 :: (t1 ++ t2), hall, hwalk, hokw⟩
  unfold triangulationOk
  rw [if_neg (by omega), if_neg (by omega), if_neg, if_neg, l1, ok_bind]
  · simp only
    congr 1
    rw [decide_eq_true_iff]
    apply countP_one
    intro s hs h0'
    rw [l3 s hs, decide_eq_true_iff, List.nil_append, hdau.mem_iff]
    have : s ∈ 0 :: (t1 ++ t2) := by rw [hall.mem_iff, List.mem_range]; omega
    rcases List.mem_cons.mp this with h | h
    · exact absurd h h0'
    · exact h
  · rw [Bool.not_eq_true', ← Bool.not_eq_true, not_not, List.all_eq_true]
    intro i hi
    rw [List.mem_range] at hi
    exact hends ⟨true, i⟩ _ (List.getElem?_eq_getElem hi)
  · rw [Bool.not_eq_true', ← Bool.not_eq_true, not_not, List.all_eq_true]
    intro i hi
    rw [List.mem_range] at hi
    exact hends ⟨false, i⟩ _ (List.getElem?_eq_getElem hi)

theorem proper_ok {T : Triangulation} (h : Proper T) : T.diags.length + 3 = T.edges.length ∧ triangulationOk T = .ok true :=
  ⟨(proper_walk h).1, (proper_walk h).2.1⟩

end Plc.Embed
