import Verif.Proofs.FromCurve

/-! The edges of `assemble_pdcode`, component by component. -/

namespace Plc.FromCurve

open Plc.Core Plc.Cmp Plc.Moves List

theorem perm_map_exists {α β : Type} {f : α → β} {l : List α} {R : List β} (h : (l.map f).Perm R) : ∃ l' : List α, l'.Perm l ∧ l'.map f = R := by
  generalize hm : l.map f = m at h
  induction h generalizing l with
  | nil => exact ⟨l, .refl _, hm⟩
  | cons x h ih =>
    obtain ⟨a, l1, rfl, rfl, hl⟩ := List.map_eq_cons_iff.mp hm
    obtain ⟨l', h1, h2⟩ := ih hl
    exact ⟨a :: l', h1.cons a, by rw [List.map_cons, h2]⟩
  | swap x y m =>
    obtain ⟨a, l1, rfl, rfl, hl⟩ := List.map_eq_cons_iff.mp hm
    obtain ⟨b, l2, rfl, rfl, hl2⟩ := List.map_eq_cons_iff.mp hl
    exact ⟨b :: a :: l2, List.Perm.swap _ _ _, by simp [hl2]⟩
  | trans _ _ ih1 ih2 =>
    obtain ⟨l1, h1, h2⟩ := ih1 hm
    obtain ⟨l2, h3, h4⟩ := ih2 h2
    exact ⟨l2, h3.trans h1, h4⟩

variable {K : Type} [LinearOrder K] {near : K → K → Bool}

/-- The strands of a component in their order, and before the first one the last one. -/
def row (S : List (Strand K)) : List (Strand K × Strand K) :=
  match S.getLast? with
  | none => []
  | some p => S.zip (p :: S)

theorem row_fst (S : List (Strand K)) : (row S).map Prod.fst = S := by
  unfold row
  cases h : S.getLast? with
  | none =>
    rw [List.getLast?_eq_none_iff] at h
    simp [h]
  | some p =>
    simp only
    rw [List.map_fst_zip]
    simp

theorem row_snd (S : List (Strand K)) : ((row S).map Prod.snd).Perm S := by
  unfold row
  cases h : S.getLast? with
  | none =>
    rw [List.getLast?_eq_none_iff] at h
    simp [h]
  | some p =>
    simp only
    have hS : S = S.dropLast ++ [p] := (List.dropLast_append_getLast? p (by simpa using h)).symm
    have : (S.zip (p :: S)).map Prod.snd = p :: S.dropLast := by
      have h1 : ∀ (L : List (Strand K)) (q : Strand K), (L.zip (q :: L)).map Prod.snd = (q :: L).dropLast := by
        intro L
        induction L with
        | nil => intro q; rfl
        | cons a L ih => intro q; simp [ih a]
      rw [h1]
      have : S ≠ [] := by
        rintro rfl
        simp at h
      rw [List.dropLast_cons_of_ne_nil this]
    rw [this]
    conv_rhs => rw [hS]
    exact (List.perm_append_singleton p _).symm

theorem row_get {S : List (Strand K)} {j : Nat} {h t : Strand K} (hj : (row S)[j]? = some (h, t)) :
    S[j]? = some h ∧ ((∃ i, j = i + 1 ∧ S[i]? = some t) ∨ (j = 0 ∧ S.getLast? = some t)) := by
  unfold row at hj
  cases hl : S.getLast? with
  | none =>
    rw [hl] at hj
    simp at hj
  | some p =>
    rw [hl] at hj
    simp only at hj
    rw [List.getElem?_zip_eq_some] at hj
    obtain ⟨a, b⟩ := hj
    refine ⟨a, ?_⟩
    cases j with
    | zero =>
      simp at b
      subst b
      exact Or.inr ⟨rfl, rfl⟩
    | succ i =>
      left
      exact ⟨i, rfl, by simpa using b⟩

section

variable {nc : Nat} {cc : List (Crossing K)} (hr : ∀ a, near a a = true) (hS : Spread near nc cc)

/-- The rows of strands: component `c` has the strands `S c`, in the order of their parameters. -/
structure Rows (cc : List (Crossing K)) (S : Nat → List (Strand K)) : Prop where
  mem : ∀ c t, t ∈ S c ↔ t ∈ strands cc ∧ t.cmp = c
  nodup : ∀ c, (S c).Nodup
  sorted : ∀ c, (S c).Pairwise (fun a b => a.s < b.s)

include hr hS in
theorem rows_exist (qs : QSort) : ∃ S, Rows cc S ∧
    ∀ c, qs.sort (fun a b => decide (0 < refCmp b a)) (refs cc c) = (S c).map (fun t => (t.num, t.s)) := by
  have key : ∀ c, ∃ L : List (Strand K), L.Perm ((strands cc).filter (fun t => decide (t.cmp = c))) ∧
      L.map (fun t => (t.num, t.s)) = qs.sort (fun a b => decide (0 < refCmp b a)) (refs cc c) ∧ L.Pairwise (fun a b => a.s < b.s) := by
    intro c
    have hp := qs.perm (fun a b => decide (0 < refCmp b a)) (refs cc c)
    obtain ⟨L, h1, h2⟩ := perm_map_exists (f := fun t : Strand K => (t.num, t.s)) (l := (strands cc).filter (fun t => decide (t.cmp = c))) hp.symm
    refine ⟨L, h1, h2, ?_⟩
    have hle : ∀ a b : Nat × K, decide (0 < refCmp b a) = true ↔ a.2 ≤ b.2 := by
      intro a b
      rw [decide_eq_true_eq]
      unfold refCmp
      by_cases h : b.2 < a.2
      · simp [h]
      · simp [h, not_lt.mp h]
    have hsort := qs.sorted (fun a b => decide (0 < refCmp b a)) (refs cc c)
      (fun a b _ _ => by rw [Bool.or_eq_true, hle, hle]; exact le_total _ _)
      (fun a b c _ _ _ x y => by rw [hle] at *; exact x.trans y)
    rw [← h2] at hsort
    have hs2 := List.pairwise_map.mp hsort
    have hmem : ∀ t ∈ L, t ∈ strands cc ∧ t.cmp = c := by
      intro t ht
      have := List.mem_filter.mp (h1.mem_iff.mp ht)
      exact ⟨this.1, of_decide_eq_true this.2⟩
    have hnd : L.Nodup := h1.nodup_iff.mpr (strands_nodup.filter _)
    refine (hs2.and hnd).imp_of_mem ?_
    intro a b ha hb hab
    have h3 := (hle _ _).mp hab.1
    exact lt_of_le_of_ne h3 (s_ne hr hS (hmem a ha).1 (hmem b hb).1 ((hmem a ha).2.trans (hmem b hb).2.symm) hab.2)
  choose S h1 h2 h3 using key
  refine ⟨S, ⟨?_, ?_, h3⟩, fun c => (h2 c).symm⟩
  · intro c t
    rw [(h1 c).mem_iff, List.mem_filter, decide_eq_true_eq]
  · intro c
    exact (h1 c).nodup_iff.mpr (strands_nodup.filter _)

variable {cs : List (Strand K)} (hp : cs.Perm (strands cc)) (hs : cs.Pairwise before)

include hr hS hp hs in
theorem edgesOf_ok (c : Nat) : ∀ (S : List (Strand K)) (p : Strand K), (∀ t ∈ S, t ∈ strands cc ∧ t.cmp = c) → p ∈ strands cc → p.cmp = c →
    edgesOf near cs c p.s (S.map (fun t => (t.num, t.s))) = .ok (S.zip (p :: S))
  | [], _, _, _, _ => rfl
  | t :: S, p, hm, hp1, hp2 => by
    obtain ⟨t1, t2⟩ := hm t (by simp)
    rw [List.map_cons, edgesOf]
    have e1 := look_ok hr hS hp hs t1
    have e2 := look_ok hr hS hp hs hp1
    rw [t2] at e1
    rw [hp2] at e2
    rw [e1, ok_bind, e2, ok_bind, edgesOf_ok c S t (fun x hx => hm x (by simp [hx])) t1 t2, ok_bind]
    rfl

include hr hS hp hs in
theorem edgesAll_ok {S : Nat → List (Strand K)} (R : Rows cc S) : ∀ (n c : Nat),
    edgesAll near cs c ((List.range' c n).map (fun c => (S c).map (fun t => (t.num, t.s)))) = .ok ((List.range' c n).flatMap (fun c => row (S c)))
  | 0, _ => rfl
  | n + 1, c => by
    rw [List.range'_succ, List.map_cons, edgesAll, List.flatMap_cons]
    rw [List.getLast?_map]
    unfold row
    cases hl : (S c).getLast? with
    | none =>
      simp only [Option.map_none]
      rw [ok_bind, edgesAll_ok R n (c + 1), ok_bind]
      rfl
    | some p =>
      simp only [Option.map_some]
      have hpm := (R.mem c p).mp (List.mem_of_getLast? hl)
      rw [edgesOf_ok hr hS hp hs c (S c) p (fun t ht => (R.mem c t).mp ht) hpm.1 hpm.2, ok_bind, edgesAll_ok R n (c + 1), ok_bind]
      rfl

/-- All edges: where they end and where they begin. -/
def table (nc : Nat) (S : Nat → List (Strand K)) : List (Strand K × Strand K) := (List.range nc).flatMap (fun c => row (S c))

include hS in
theorem rows_perm {S : Nat → List (Strand K)} (R : Rows cc S) : ((List.range nc).flatMap S).Perm (strands cc) := by
  rw [List.perm_ext_iff_of_nodup ?_ strands_nodup]
  · intro t
    rw [List.mem_flatMap]
    constructor
    · rintro ⟨c, -, ht⟩
      exact ((R.mem c t).mp ht).1
    · intro ht
      exact ⟨t.cmp, List.mem_range.mpr (hS.range _ _ _ (mem_strands.mp ht)), (R.mem _ t).mpr ⟨ht, rfl⟩⟩
  · rw [List.nodup_flatMap]
    refine ⟨fun c _ => R.nodup c, List.nodup_range.imp ?_⟩
    intro a b hab
    unfold Function.onFun
    intro t h1 h2
    exact hab (((R.mem a t).mp h1).2.symm.trans ((R.mem b t).mp h2).2)

include hS in
theorem table_fst {S : Nat → List (Strand K)} (R : Rows cc S) : ((table nc S).map Prod.fst).Perm (strands cc) := by
  have : (table nc S).map Prod.fst = (List.range nc).flatMap S := by
    unfold table
    rw [List.map_flatMap]
    congr 1
    funext c
    exact row_fst (S c)
  rw [this]
  exact rows_perm hS R

include hS in
theorem table_snd {S : Nat → List (Strand K)} (R : Rows cc S) : ((table nc S).map Prod.snd).Perm (strands cc) := by
  refine List.Perm.trans ?_ (rows_perm hS R)
  unfold table
  rw [List.map_flatMap]
  exact List.Perm.flatMap_left _ (fun c _ => row_snd (S c))

theorem table_next {S : Nat → List (Strand K)} (R : Rows cc S) {h t : Strand K} (hm : (h, t) ∈ table nc S) :
    NextStrand cc (t.num, t.up) (h.num, h.up) := by
  unfold table at hm
  obtain ⟨c, -, hc⟩ := List.mem_flatMap.mp hm
  obtain ⟨j, hj⟩ := List.mem_iff_getElem?.mp hc
  obtain ⟨h1, h2⟩ := row_get hj
  have hh := (R.mem c h).mp (List.mem_of_getElem? h1)
  have ht : t ∈ S c := by
    rcases h2 with ⟨i, -, hi⟩ | ⟨-, hl⟩
    · exact List.mem_of_getElem? hi
    · exact List.mem_of_getLast? hl
  have ht' := (R.mem c t).mp ht
  have hlt : ∀ (i j : Nat) (a b : Strand K), (S c)[i]? = some a → (S c)[j]? = some b → i < j → a.s < b.s := by
    intro i j a b ha hb hij
    have := List.pairwise_iff_getElem.mp (R.sorted c) i j (List.getElem?_eq_some_iff.mp ha).1 (List.getElem?_eq_some_iff.mp hb).1 hij
    rw [(List.getElem?_eq_some_iff.mp ha).2, (List.getElem?_eq_some_iff.mp hb).2] at this
    exact this
  refine ⟨c, t.s, h.s, ?_, ?_, ?_⟩
  · rw [← ht'.2]
    exact mem_strands.mp ht'.1
  · rw [← hh.2]
    exact mem_strands.mp hh.1
  · have hall : ∀ d u, StrandOn cc d c u → ∃ (i : Nat) (x : Strand K), (S c)[i]? = some x ∧ x.s = u := by
      intro d u hd
      have : (⟨d.1, c, u, d.2⟩ : Strand K) ∈ S c := (R.mem c _).mpr ⟨mem_strands.mpr hd, rfl⟩
      obtain ⟨i, hi⟩ := List.mem_iff_getElem?.mp this
      exact ⟨i, _, hi, rfl⟩
    rcases h2 with ⟨i, rfl, hi⟩ | ⟨rfl, hl⟩
    · left
      refine ⟨hlt _ _ _ _ hi h1 (by omega), ?_⟩
      rintro d u hd ⟨u1, u2⟩
      obtain ⟨k, x, k1, k2⟩ := hall d u hd
      rw [← k2] at u1 u2
      rcases Nat.lt_or_ge i k with hik | hik
      · rcases Nat.lt_or_ge k (i + 1) with hk | hk
        · omega
        · rcases Nat.lt_or_ge (i + 1) k with hk' | hk'
          · exact absurd (hlt _ _ _ _ h1 k1 hk') (not_lt.mpr u2.le)
          · have : k = i + 1 := by omega
            subst this
            rw [h1] at k1
            cases k1
            exact lt_irrefl _ u2
      · rcases Nat.lt_or_ge k i with hk | hk
        · exact absurd (hlt _ _ _ _ k1 hi hk) (not_lt.mpr u1.le)
        · have : k = i := by omega
          subst this
          rw [hi] at k1
          cases k1
          exact lt_irrefl _ u1
    · right
      intro d u hd
      obtain ⟨k, x, k1, k2⟩ := hall d u hd
      have hk := (List.getElem?_eq_some_iff.mp k1).1
      rw [List.getLast?_eq_getElem?] at hl
      rw [← k2]
      constructor
      · rcases Nat.eq_zero_or_pos k with rfl | hpos
        · rw [h1] at k1
          cases k1
          exact le_refl _
        · exact (hlt _ _ _ _ h1 k1 hpos).le
      · rcases Nat.lt_or_ge k ((S c).length - 1) with hkk | hkk
        · exact (hlt _ _ _ _ k1 hl hkk).le
        · have : k = (S c).length - 1 := by omega
          subst this
          rw [hl] at k1
          cases k1
          exact le_refl _

include hr hS in
/-- The strand before is unique. -/
theorem next_unique {a a' b : Nat × Bool} (h1 : NextStrand cc a b) (h2 : NextStrand cc a' b) : a = a' := by
  obtain ⟨c, s, t, x1, x2, x3⟩ := h1
  obtain ⟨c', s', t', y1, y2, y3⟩ := h2
  obtain ⟨e1, e2⟩ := strandOn_unique x2 y2
  subst e1 e2
  by_contra hne
  have hss : s ≠ s' := by
    rintro rfl
    have := hS.apart _ _ _ _ _ x1 y1 hne
    rw [hr] at this
    cases this
  rcases x3 with ⟨x3, x4⟩ | x3 <;> rcases y3 with ⟨y3, y4⟩ | y3
  · rcases lt_or_gt_of_ne hss with h | h
    · exact x4 _ _ y1 ⟨h, y3⟩
    · exact y4 _ _ x1 ⟨h, x3⟩
  · exact absurd x3 (not_lt.mpr (y3 _ _ x1).1)
  · exact absurd y3 (not_lt.mpr (x3 _ _ y1).1)
  · exact hss (le_antisymm (y3 _ _ x1).2 (x3 _ _ y1).2)

include hr hS in
/-- The strand after is unique. -/
theorem next_unique' {a b b' : Nat × Bool} (h1 : NextStrand cc a b) (h2 : NextStrand cc a b') : b = b' := by
  obtain ⟨c, s, t, x1, x2, x3⟩ := h1
  obtain ⟨c', s', t', y1, y2, y3⟩ := h2
  obtain ⟨e1, e2⟩ := strandOn_unique x1 y1
  subst e1 e2
  by_contra hne
  have hss : t ≠ t' := by
    rintro rfl
    have := hS.apart _ _ _ _ _ x2 y2 hne
    rw [hr] at this
    cases this
  rcases x3 with ⟨x3, x4⟩ | x3 <;> rcases y3 with ⟨y3, y4⟩ | y3
  · rcases lt_or_gt_of_ne hss with h | h
    · exact y4 _ _ x2 ⟨x3, h⟩
    · exact x4 _ _ y2 ⟨y3, h⟩
  · exact absurd x3 (not_lt.mpr (y3 _ _ x2).2)
  · exact absurd y3 (not_lt.mpr (x3 _ _ y2).2)
  · exact hss (le_antisymm (x3 _ _ y2).1 (y3 _ _ x2).1)

end

end Plc.FromCurve
