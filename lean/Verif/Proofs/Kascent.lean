import Verif.Model.Kascent
import Verif.Proofs.Basic
import Mathlib.Data.List.Nodup
import Mathlib.Data.List.Perm.Subperm
import Mathlib.Tactic.Ring
import Mathlib.Tactic.Linarith

/-! Lemmas on linked lists in a node buffer and on ascents. -/

namespace Plc.Kasc

theorem rdI_nat {α : Type} (l : List α) (i : Nat) : rdI l (i : Int) = rd l i := by simp [rdI]

theorem wrI_nat {α : Type} (l : List α) (i : Nat) (a : α) : wrI l (i : Int) a = wr l i a := by simp [wrI]

/-- Number of neighbours in relation `lt`. -/
def adj (lt : Int → Int → Bool) : List Int → Nat
  | a :: b :: l => (if lt a b then 1 else 0) + adj lt (b :: l)
  | _ => 0

/-- The nodes `ixs`, holding the values `vs`, form the list that starts at `loc`. -/
def Seg (node : List (Int × Int)) : Int → List Nat → List Int → Prop
  | loc, [], [] => loc = -1
  | loc, i :: is, a :: as => loc = i ∧ ∃ nx, node[i]? = some (a, nx) ∧ Seg node nx is as
  | _, _, _ => False

theorem Seg.length {node : List (Int × Int)} : ∀ {loc : Int} {ixs : List Nat} {vs : List Int},
    Seg node loc ixs vs → ixs.length = vs.length
  | _, [], [], _ => rfl
  | _, _ :: _, _ :: _, h => by
    obtain ⟨_, _, _, h⟩ := h
    simp [h.length]
  | _, [], _ :: _, h => h.elim
  | _, _ :: _, [], h => h.elim

theorem Seg.frame {node node' : List (Int × Int)} : ∀ {loc : Int} {ixs : List Nat} {vs : List Int},
    Seg node loc ixs vs → (∀ j ∈ ixs, node'[j]? = node[j]?) → Seg node' loc ixs vs
  | _, [], [], h, _ => h
  | _, i :: _, _ :: _, h, hf => by
    obtain ⟨h1, nx, h2, h3⟩ := h
    exact ⟨h1, nx, by rw [hf i (by simp)]; exact h2, h3.frame (fun j hj => hf j (by simp [hj]))⟩
  | _, [], _ :: _, h, _ => h.elim
  | _, _ :: _, [], h, _ => h.elim

/-- The place of the walk: the pair number `j` in relation `lt`. -/
theorem walk_ok (lt : Int → Int → Bool) (node : List (Int × Int)) (want : Int) :
    ∀ (ixs : List Nat) (vs : List Int) (loc cnt : Int) (fuel : Nat), Seg node loc ixs vs → ixs.length < fuel →
      cnt < want → want - cnt ≤ adj lt vs →
      ∃ (p s : List Nat) (i : Nat) (pv sv : List Int) (a b : Int), ixs = p ++ i :: s ∧
        vs = pv ++ a :: b :: sv ∧ p.length = pv.length ∧ lt a b = true ∧
        walk lt node want fuel loc cnt = .ok (some (i : Int)) := by
  intro ixs
  induction ixs with
  | nil =>
    intro vs loc cnt fuel h hf hc hw
    cases vs with
    | nil => simp [adj] at hw; omega
    | cons a l => exact h.elim
  | cons i is ih =>
    intro vs loc cnt fuel h hf hc hw
    cases vs with
    | nil => exact h.elim
    | cons a as =>
    obtain ⟨h1, nx, h2, h3⟩ := h
    subst h1
    cases fuel with
    | zero => simp at hf
    | succ fuel =>
    cases as with
    | nil => simp [adj] at hw; omega
    | cons b bs =>
    cases is with
    | nil => exact h3.elim
    | cons i2 is2 =>
    have h3' := h3
    obtain ⟨g1, nx2, g2, g3⟩ := h3
    subst g1
    have step : walk lt node want (fuel + 1) (i : Int) cnt = (if lt a b then
        if cnt + 1 = want then .ok (some (i : Int)) else walk lt node want fuel i2 (cnt + 1)
      else walk lt node want fuel i2 cnt) := by
      rw [walk, rdI_nat, rd_eq_ok.mpr h2, ok_bind]
      simp only
      rw [if_neg (by omega), rdI_nat, rd_eq_ok.mpr g2, ok_bind]
    have hrec : ∀ cnt', cnt' < want → want - cnt' ≤ adj lt (b :: bs) →
        walk lt node want (fuel + 1) (i : Int) cnt = walk lt node want fuel i2 cnt' →
        ∃ (p s : List Nat) (j : Nat) (pv sv : List Int) (c d : Int), i :: i2 :: is2 = p ++ j :: s ∧
        a :: b :: bs = pv ++ c :: d :: sv ∧ p.length = pv.length ∧ lt c d = true ∧
        walk lt node want (fuel + 1) (i : Int) cnt = .ok (some (j : Int)) := by
      intro cnt' e1 e2 e3
      obtain ⟨p, s, j, pv, sv, c, d, r1, r2, r3, r4, r5⟩ := ih (b :: bs) (i2 : Int) cnt' fuel h3' (by simp at hf ⊢; omega) e1 e2
      exact ⟨i :: p, s, j, a :: pv, sv, c, d, by rw [r1]; rfl, by rw [r2]; rfl, by simp [r3], r4, by rw [e3, r5]⟩
    by_cases hl : lt a b = true
    · rw [if_pos hl] at step
      by_cases hq : cnt + 1 = want
      · rw [if_pos hq] at step
        exact ⟨[], i2 :: is2, i, [], bs, a, b, rfl, rfl, rfl, hl, step⟩
      · rw [if_neg hq] at step
        refine hrec (cnt + 1) (by omega) ?_ step
        simp only [adj, hl, if_true] at hw
        omega
    · rw [if_neg hl] at step
      refine hrec cnt hc ?_ step
      simp only [adj, hl] at hw
      simpa using hw

theorem Seg.insert {node node' : List (Int × Int)} {x : Int} {i w : Nat} {s : List Nat} {a : Int} {sv : List Int} :
    ∀ (p : List Nat) (pv : List Int) (loc : Int), p.length = pv.length → Seg node loc (p ++ i :: s) (pv ++ a :: sv) →
      (∀ j ∈ p ++ s, node'[j]? = node[j]?) → node'[i]? = some (a, (w : Int)) →
      (∀ nx, node[i]? = some (a, nx) → node'[w]? = some (x, nx)) →
      Seg node' loc (p ++ i :: w :: s) (pv ++ a :: x :: sv) := by
  intro p
  induction p with
  | nil =>
    intro pv loc hl h hf hi hw
    cases pv with
    | cons _ _ => simp at hl
    | nil =>
    obtain ⟨h1, nx, h2, h3⟩ := h
    exact ⟨h1, w, hi, rfl, nx, hw nx h2, h3.frame (fun j hj => hf j (by simpa using hj))⟩
  | cons j p ih =>
    intro pv loc hl h hf hi hw
    cases pv with
    | nil => simp at hl
    | cons c pv =>
    obtain ⟨h1, nx, h2, h3⟩ := h
    exact ⟨h1, nx, by rw [hf j (by simp)]; exact h2,
      ih pv nx (by simpa using hl) h3 (fun k hk => hf k (by simp at hk ⊢; tauto)) hi hw⟩

/-- The working permutation holds the list `vs`. -/
structure Rep (wp : WPerm) (vs : List Int) (ixs : List Nat) : Prop where
  seg : Seg wp.node wp.start ixs vs
  nodup : ixs.Nodup
  lt : ∀ i ∈ ixs, i < wp.used
  len : ixs.length = wp.used
  size : wp.node.length = wp.max
  fits : wp.used ≤ wp.max

theorem Rep.mem {wp : WPerm} {vs : List Int} {ixs : List Nat} (h : Rep wp vs ixs) : ∀ i, i < wp.used → i ∈ ixs := by
  have hp : ixs.Subperm (List.range wp.used) := h.nodup.subperm (fun i hi => List.mem_range.mpr (h.lt i hi))
  have := hp.perm_of_length_le (by simp [h.len])
  intro i hi
  exact this.mem_iff.mpr (List.mem_range.mpr hi)

theorem insertAfter_ok {wp : WPerm} {x : Int} {pv sv : List Int} {p s : List Nat} {i : Nat} {a : Int}
    (h : Rep wp (pv ++ a :: sv) (p ++ i :: s)) (hl : p.length = pv.length) (hlt : wp.used < wp.max) :
    ∃ wp', insertAfter wp x i = .ok wp' ∧ Rep wp' (pv ++ a :: x :: sv) (p ++ i :: wp.used :: s) ∧
      wp'.used = wp.used + 1 ∧ wp'.max = wp.max := by
  have hi : i < wp.used := h.lt i (by simp)
  have hnd := h.nodup
  have hin : ∃ nx, wp.node[i]? = some (a, nx) := by
    have := h.seg
    clear h hnd
    revert this
    generalize wp.start = loc
    revert loc
    induction p generalizing pv with
    | nil =>
      intro loc h
      cases pv with
      | nil => obtain ⟨_, nx, h2, _⟩ := h; exact ⟨nx, h2⟩
      | cons _ _ => simp at hl
    | cons j p ih =>
      intro loc h
      cases pv with
      | nil => simp at hl
      | cons c pv =>
        obtain ⟨_, nx, _, h3⟩ := h
        exact ih (by simpa using hl) nx h3
  obtain ⟨nx, hnx⟩ := hin
  have hsz := h.size
  refine ⟨{ wp with node := (wp.node.set wp.used (x, nx)).set i (a, (wp.used : Int)), used := wp.used + 1 }, ?_, ?_, rfl, rfl⟩
  · unfold insertAfter
    have e1 : (wp.node.set wp.used (x, nx))[i]? = some (a, nx) := by
      rw [List.getElem?_set_ne (by omega), hnx]
    rw [rdI_nat, rd_eq_ok.mpr hnx, ok_bind, wr_lt (by omega), ok_bind, rdI_nat, rd_eq_ok.mpr e1, ok_bind, wrI_nat,
      wr_lt (by simp; omega), ok_bind, assertC_ok (by simp; omega), ok_bind]
  · refine ⟨?_, ?_, ?_, ?_, ?_, ?_⟩
    · refine Seg.insert p pv _ hl h.seg ?_ ?_ ?_
      · intro j hj
        have h1 : j ≠ i := by
          rintro rfl
          rw [List.nodup_append] at hnd
          simp only [List.mem_append] at hj
          rcases hj with hj | hj
          · exact hnd.2.2 j hj j (by simp) rfl
          · exact (List.nodup_cons.mp hnd.2.1).1 hj
        have h2 : j < wp.used := h.lt j (by simp at hj ⊢; tauto)
        simp only
        rw [List.getElem?_set_ne (Ne.symm h1), List.getElem?_set_ne (by omega)]
      · simp only
        rw [List.getElem?_set_self (by simp; omega)]
      · intro nx' h'
        rw [hnx] at h'
        simp only [Option.some.injEq, Prod.mk.injEq, true_and] at h'
        subst h'
        simp only
        rw [List.getElem?_set_ne (by omega), List.getElem?_set_self (by omega)]
    · have hw : wp.used ∉ p ++ i :: s := fun hm => absurd (h.lt _ hm) (by omega)
      have : (p ++ i :: wp.used :: s).Perm (wp.used :: (p ++ i :: s)) := by
        have : p ++ i :: wp.used :: s = (p ++ [i]) ++ wp.used :: s := by simp
        rw [this]
        refine List.perm_middle.trans ?_
        simp
      exact this.nodup_iff.mpr (List.nodup_cons.mpr ⟨hw, hnd⟩)
    · intro j hj
      have : j ∈ p ++ i :: s ∨ j = wp.used := by simp at hj ⊢; tauto
      rcases this with h1 | h1
      · exact Nat.lt_succ_of_lt (h.lt j h1)
      · simp only; omega
    · have := h.len
      simp at this ⊢
      omega
    · simp [hsz]
    · simp only; omega

theorem insertAt_ok (lt : Int → Int → Bool) {wp : WPerm} {x want : Int} {vs : List Int} {ixs : List Nat}
    (h : Rep wp vs ixs) (hlt : wp.used < wp.max) (h0 : 0 ≤ want) (hw : want < adj lt vs) :
    ∃ (wp' : WPerm) (pv sv : List Int) (a b : Int) (ixs' : List Nat), insertAt lt wp x want = .ok wp' ∧
      vs = pv ++ a :: b :: sv ∧ lt a b = true ∧ Rep wp' (pv ++ a :: x :: b :: sv) ixs' ∧
      wp'.used = wp.used + 1 ∧ wp'.max = wp.max := by
  obtain ⟨p, s, i, pv, sv, a, b, r1, r2, r3, r4, r5⟩ := walk_ok lt wp.node want ixs vs wp.start (-1) (wp.max + 1) h.seg
    (by have := h.len; have := h.fits; omega) (by omega) (by omega)
  subst r1 r2
  obtain ⟨wp', q1, q2, q3, q4⟩ := insertAfter_ok (x := x) h r3 hlt
  refine ⟨wp', pv, sv, a, b, _, ?_, rfl, r4, q2, q3, q4⟩
  unfold insertAt
  rw [r5, ok_bind]
  exact q1

theorem insertAtStart_ok {wp : WPerm} {x : Int} {vs : List Int} {ixs : List Nat}
    (h : Rep wp vs ixs) (hlt : wp.used < wp.max) :
    ∃ (wp' : WPerm) (ixs' : List Nat), insertAtStart wp x = .ok wp' ∧ Rep wp' (x :: vs) ixs' ∧
      wp'.used = wp.used + 1 ∧ wp'.max = wp.max := by
  have hsz := h.size
  refine ⟨{ wp with node := wp.node.set wp.used (x, wp.start), start := wp.used, used := wp.used + 1 }, wp.used :: ixs, ?_, ?_, rfl, rfl⟩
  · unfold insertAtStart
    rw [wr_lt (by omega), ok_bind, assertC_ok (by simp; omega), ok_bind]
  · refine ⟨⟨rfl, wp.start, ?_, ?_⟩, ?_, ?_, ?_, ?_, ?_⟩
    · simp only
      rw [List.getElem?_set_self (by omega)]
    · refine h.seg.frame (fun j hj => ?_)
      have := h.lt j hj
      simp only
      rw [List.getElem?_set_ne (by omega)]
    · exact List.nodup_cons.mpr ⟨fun hm => absurd (h.lt _ hm) (by omega), h.nodup⟩
    · intro j hj
      rcases List.mem_cons.mp hj with h1 | h1
      · subst h1; simp
      · exact Nat.lt_succ_of_lt (h.lt j h1)
    · simp [h.len]
    · simp [hsz]
    · simp only; omega

/-- In a nonempty list, `-1` is behind the last node and only there. -/
theorem Seg.last {node : List (Int × Int)} : ∀ (p : List Nat) (pv : List Int) (loc : Int) (i : Nat) (a : Int),
    Seg node loc (p ++ [i]) (pv ++ [a]) → node[i]? = some (a, -1) ∧ ∀ j ∈ p, ∃ y, node[j]? = some y ∧ y.2 ≠ -1 := by
  intro p
  induction p with
  | nil =>
    intro pv loc i a h
    have := h.length
    cases pv with
    | cons _ _ => simp at this
    | nil =>
      obtain ⟨_, nx, h2, h3⟩ := h
      have h3 : nx = -1 := h3
      subst h3
      exact ⟨h2, by simp⟩
  | cons k p ih =>
    intro pv loc i a h
    cases pv with
    | nil => have := h.length; simp at this
    | cons c pv =>
      obtain ⟨_, nx, h2, h3⟩ := h
      obtain ⟨r1, r2⟩ := ih pv nx i a h3
      refine ⟨r1, fun j hj => ?_⟩
      rcases List.mem_cons.mp hj with h1 | h1
      · subst h1
        refine ⟨_, h2, ?_⟩
        simp only
        cases p with
        | nil =>
          cases pv with
          | nil => obtain ⟨q, _⟩ := h3; omega
          | cons _ _ => exact absurd h3.length (by simp)
        | cons m p' =>
          cases pv with
          | nil => exact absurd h3.length (by simp)
          | cons _ _ => obtain ⟨q, _⟩ := h3; omega
      · exact r2 j h1

theorem lastLoop_ok (node : List (Int × Int)) (m : Nat) (a : Int) (hm : node[m]? = some (a, -1)) :
    ∀ (todo i : Nat), i ≤ m → m < i + todo → (∀ j, i ≤ j → j < m → ∃ y, node[j]? = some y ∧ y.2 ≠ -1) →
      lastLoop node todo i = .ok (some m) := by
  intro todo
  induction todo with
  | zero => intro i h1 h2; omega
  | succ t ih =>
    intro i h1 h2 h3
    unfold lastLoop
    by_cases he : i = m
    · subst he
      rw [rd_eq_ok.mpr hm, ok_bind]
      simp
    · obtain ⟨y, hy1, hy2⟩ := h3 i (by omega) (by omega)
      rw [rd_eq_ok.mpr hy1, ok_bind, if_neg hy2]
      exact ih (i + 1) (by omega) (by omega) (fun j hj1 hj2 => h3 j (by omega) hj2)

theorem insertAtEnd_ok {wp : WPerm} {x : Int} {vs : List Int} {ixs : List Nat}
    (h : Rep wp vs ixs) (hlt : wp.used < wp.max) (hne : vs ≠ []) :
    ∃ (wp' : WPerm) (ixs' : List Nat), insertAtEnd wp x = .ok wp' ∧ Rep wp' (vs ++ [x]) ixs' ∧
      wp'.used = wp.used + 1 ∧ wp'.max = wp.max := by
  have hlen := h.seg.length
  have hine : ixs ≠ [] := by
    intro h0
    subst h0
    exact hne (List.length_eq_zero_iff.mp (by simpa using hlen.symm))
  obtain ⟨p, i, rfl⟩ : ∃ p i, ixs = p ++ [i] := ⟨_, _, (List.dropLast_append_getLast hine).symm⟩
  obtain ⟨pv, a, rfl⟩ : ∃ pv a, vs = pv ++ [a] := ⟨_, _, (List.dropLast_append_getLast hne).symm⟩
  have hl : p.length = pv.length := by simpa using hlen
  obtain ⟨g1, g2⟩ := Seg.last p pv wp.start i a h.seg
  have hi : i < wp.used := h.lt i (by simp)
  have hsz := h.size
  have hloop : lastLoop wp.node wp.used 0 = .ok (some i) := by
    refine lastLoop_ok wp.node i a g1 wp.used 0 (by omega) (by omega) (fun j _ hj => ?_)
    refine g2 j ?_
    have := h.mem j (by omega)
    simp only [List.mem_append, List.mem_singleton] at this
    rcases this with h1 | h1
    · exact h1
    · omega
  refine ⟨{ wp with node := (wp.node.set i (a, (wp.used : Int))).set wp.used (x, -1), used := wp.used + 1 }, p ++ [i, wp.used], ?_, ?_, rfl, rfl⟩
  · unfold insertAtEnd
    rw [hloop, ok_bind]
    simp only
    rw [rd_eq_ok.mpr g1, ok_bind, wr_lt (by omega), ok_bind, wr_lt (by simp; omega), ok_bind,
      assertC_ok (by simp; omega), ok_bind]
  · have hnd := h.nodup
    refine ⟨?_, ?_, ?_, ?_, ?_, ?_⟩
    · have := Seg.insert (node := wp.node) (node' := (wp.node.set i (a, (wp.used : Int))).set wp.used (x, -1)) (x := x)
        (i := i) (w := wp.used) (s := []) (a := a) (sv := []) p pv wp.start hl h.seg ?_ ?_ ?_
      · simpa using this
      · intro j hj
        simp only [List.append_nil] at hj
        have h1 : j ≠ i := by
          rintro rfl
          rw [List.nodup_append] at hnd
          exact hnd.2.2 j hj j (by simp) rfl
        have h2 : j < wp.used := h.lt j (by simp [hj])
        rw [List.getElem?_set_ne (by omega), List.getElem?_set_ne (Ne.symm h1)]
      · rw [List.getElem?_set_ne (by omega), List.getElem?_set_self (by omega)]
      · intro nx' h'
        rw [g1] at h'
        simp only [Option.some.injEq, Prod.mk.injEq, true_and] at h'
        subst h'
        rw [List.getElem?_set_self (by simp; omega)]
    · have hw : wp.used ∉ p ++ [i] := fun hm => absurd (h.lt _ hm) (by omega)
      have e : p ++ [i, wp.used] = (p ++ [i]) ++ [wp.used] := by simp
      rw [e]
      exact (List.perm_append_singleton _ _).nodup_iff.mpr (List.nodup_cons.mpr ⟨hw, hnd⟩)
    · intro j hj
      have : j ∈ p ++ [i] ∨ j = wp.used := by simp at hj ⊢; tauto
      rcases this with h1 | h1
      · exact Nat.lt_succ_of_lt (h.lt j h1)
      · simp only; omega
    · have := h.len
      simp at this ⊢
      omega
    · simp [hsz]
    · simp only; omega

/-- Reading out. -/
theorem convert_ok (node : List (Int × Int)) : ∀ (ixs : List Nat) (vs : List Int) (loc : Int) (fuel i : Nat) (buf : List Int),
    Seg node loc ixs vs → ixs.length < fuel → i + vs.length ≤ buf.length →
    convertLoop node fuel i loc buf = .ok (buf.take i ++ vs ++ buf.drop (i + vs.length)) := by
  intro ixs
  induction ixs with
  | nil =>
    intro vs loc fuel i buf h hf hb
    cases vs with
    | cons _ _ => exact h.elim
    | nil =>
      have h : loc = -1 := h
      subst h
      cases fuel with
      | zero => omega
      | succ f => simp [convertLoop]
  | cons j is ih =>
    intro vs loc fuel i buf h hf hb
    cases vs with
    | nil => exact h.elim
    | cons a as =>
    obtain ⟨h1, nx, h2, h3⟩ := h
    subst h1
    cases fuel with
    | zero => simp at hf
    | succ f =>
      have hi : i < buf.length := by simp at hb; omega
      unfold convertLoop
      rw [if_neg (by omega), rdI_nat, rd_eq_ok.mpr h2, ok_bind, wr_lt hi, ok_bind,
        ih as nx f (i + 1) _ h3 (by simp at hf; omega) (by simp at hb ⊢; omega)]
      congr 1
      have e1 : (buf.set i a).take (i + 1) = buf.take i ++ [a] := by
        rw [List.take_set, List.take_succ_eq_append_getElem hi, List.set_append_right _ _ (by simp)]
        simp [Nat.min_eq_left hi.le]
      have e2 : (buf.set i a).drop (i + 1 + as.length) = buf.drop (i + (a :: as).length) := by
        rw [List.drop_set_of_lt (by omega)]
        congr 1
        simp; omega
      rw [e1, e2]
      simp

end Plc.Kasc
