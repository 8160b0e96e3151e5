import Verif.Proofs.Buffers
import Verif.Proofs.Std
import Batteries.Lean.Except

/-! # Properties C14 and C15: sorted buffers (`src/pd_sortedbuf.c`) and compacting copies
(`src/pd_crossingmoves.c`) -/

namespace Plc.Buffers

open Plc.PermM (BSearch)

/-- **C14, one call.** Inserting into a strictly increasing nonempty buffer keeps it
strictly increasing and adds exactly the new element; nothing changes if it is there. -/
theorem C14_insert (bs : BSearch) (junk : Nat) (buf : List Nat) (hs : buf.Pairwise (· < ·))
    (h0 : buf ≠ []) (ins : Nat) :
    ∃ buf', insert bs junk (some buf) ins = .ok buf' ∧ buf'.Pairwise (· < ·) ∧
      (∀ x, x ∈ buf' ↔ x = ins ∨ x ∈ buf) ∧ (ins ∈ buf → buf' = buf) := by
  rw [insert_spec bs junk hs h0]
  refine ⟨_, rfl, ?_, ?_, ?_⟩
  · split
    · exact hs
    · exact insS_sorted ins buf hs ‹_›
  · intro x
    split
    · constructor
      · exact Or.inr
      · rintro (rfl | h) <;> assumption
    · exact insS_mem ins buf x
  · intro h; rw [if_pos h]

/-- Inserting a list of numbers one by one, starting from a `NULL` buffer. -/
def insertAll (bs : BSearch) (junk : Nat) : Option (List Nat) → List Nat → Res (Option (List Nat))
  | buf, [] => .ok buf
  | buf, x :: xs => do
    let b ← insert bs junk buf x
    insertAll bs junk (some b) xs

/-- **C14.** After any history of insertions into a new (`NULL`) buffer, the buffer is
strictly increasing and `pd_sortedbuf_contains` answers exactly whether the number was
inserted. Holds for every `bsearch` that meets the C standard. -/
theorem C14_sortedbuf_is_set (bs : BSearch) (junk : Nat) (xs : List Nat) (h0 : xs ≠ []) :
    ∃ buf, insertAll bs junk none xs = .ok (some buf) ∧ buf.Pairwise (· < ·) ∧
      (∀ x, x ∈ buf ↔ x ∈ xs) ∧ ∀ x, contains bs buf x = true ↔ x ∈ xs := by
  have step : ∀ (ys : List Nat) (buf : List Nat), buf ≠ [] → buf.Pairwise (· < ·) →
      ∃ buf', insertAll bs junk (some buf) ys = .ok (some buf') ∧ buf'.Pairwise (· < ·) ∧
        (∀ x, x ∈ buf' ↔ x ∈ buf ∨ x ∈ ys) := by
    intro ys
    induction ys with
    | nil => intro buf _ hs; exact ⟨buf, rfl, hs, by simp⟩
    | cons y ys ih =>
      intro buf hn hs
      obtain ⟨b1, e1, e2, e3, _⟩ := C14_insert bs junk buf hs hn y
      obtain ⟨b2, f1, f2, f3⟩ := ih b1 (List.ne_nil_of_mem ((e3 y).mpr (Or.inl rfl))) e2
      refine ⟨b2, ?_, f2, ?_⟩
      · unfold insertAll; rw [e1]; exact f1
      · intro x; rw [f3, e3, List.mem_cons]; tauto
  cases xs with
  | nil => exact absurd rfl h0
  | cons y ys =>
    obtain ⟨b, e1, e2, e3⟩ := step ys [y] (by simp) (by simp)
    have hm : ∀ x, x ∈ b ↔ x ∈ y :: ys := by intro x; rw [e3]; simp
    refine ⟨b, e1, e2, hm, ?_⟩
    intro x
    unfold contains
    rw [find_iff bs x e2, hm]

/-- A history with a repetition, insertion in front, in the middle and at the end. -/
example : insertAll linearBSearch 99 none [5, 3, 9, 7, 3] = .ok (some [3, 5, 7, 9]) := by
  decide +kernel

/-- **C14, misuse.** An empty buffer which is not `NULL` aborts. -/
theorem C14_empty_buffer_dies (bs : BSearch) (junk ins : Nat) :
    insert bs junk (some []) ins = .error .die := rfl

/-! ## Compacting copy -/

/-- Number of surviving positions before `i`. -/
def survivorsBefore (deletions : List Nat) (i : Nat) : Nat :=
  ((List.range i).filter (fun j => decide (j ∉ deletions))).length

theorem keepFrom_zipIdx {α : Type} (p : Nat → Bool) : ∀ (src : List α) (si : Nat),
    keepFrom p si src = ((src.zipIdx si).filter (fun q => !p q.2)).map (·.1)
  | [], _ => rfl
  | a :: src, si => by
    unfold keepFrom
    rw [keepFrom_zipIdx p src (si + 1), List.zipIdx_cons, List.filter_cons]
    cases p si <;> simp

theorem idxFrom_get (p : Nat → Bool) : ∀ (n si ti i : Nat), i < n →
    (idxFrom p n si ti)[i]? = some (if p (si + i) then UNSET_IDX
      else ti + ((List.range i).filter (fun j => !p (si + j))).length)
  | 0, _, _, _, h => by omega
  | n + 1, si, ti, 0, _ => by
    unfold idxFrom
    cases h : p si <;> simp [h]
  | n + 1, si, ti, i + 1, h => by
    unfold idxFrom
    have e : ∀ (q : Nat → Bool), ((List.range (i + 1)).filter q).length =
        (if q 0 then 1 else 0) + ((List.range i).filter (fun j => q (j + 1))).length := by
      intro q
      rw [List.range_succ_eq_map, List.filter_cons, List.filter_map]
      split
      · simp [Function.comp_def]; omega
      · simp [Function.comp_def]
    have e2 : ∀ j, si + 1 + j = si + (j + 1) := by intro j; omega
    cases h2 : p si
    · simp only [Bool.false_eq_true, if_false, List.getElem?_cons_succ]
      rw [idxFrom_get p n (si + 1) (ti + 1) i (by omega), e]
      simp only [e2, Nat.add_zero, h2, Bool.not_false, if_true]
      congr 2; omega
    · simp only [if_true, List.getElem?_cons_succ]
      rw [idxFrom_get p n (si + 1) ti i (by omega), e]
      simp only [e2, Nat.add_zero, h2, Bool.not_true, Bool.false_eq_true, if_false, Nat.zero_add]

theorem idxFrom_length (p : Nat → Bool) : ∀ (n si ti : Nat), (idxFrom p n si ti).length = n
  | 0, _, _ => rfl
  | n + 1, si, ti => by
    unfold idxFrom
    split <;> simp [idxFrom_length p n]

theorem keepFrom_get {α : Type} (p : Nat → Bool) : ∀ (src : List α) (si i : Nat), i < src.length →
    p (si + i) = false →
    (keepFrom p si src)[((List.range i).filter (fun j => !p (si + j))).length]? = src[i]?
  | [], _, _, h, _ => by simp at h
  | a :: src, si, 0, _, hp => by
    unfold keepFrom
    simp at hp
    simp [hp]
  | a :: src, si, i + 1, h, hp => by
    unfold keepFrom
    have e2 : ∀ j, si + 1 + j = si + (j + 1) := by intro j; omega
    have ih := keepFrom_get p src (si + 1) i (by simpa using h) (by rw [e2]; exact hp)
    simp only [e2] at ih
    have e : ((List.range (i + 1)).filter (fun j => !p (si + j))).length =
        (if !p si then 1 else 0) + ((List.range i).filter (fun j => !p (si + (j + 1)))).length := by
      rw [List.range_succ_eq_map, List.filter_cons, List.filter_map]
      split
      · rename_i h; simp at h; simp [h, Function.comp_def]; omega
      · rename_i h; simp at h; simp [h, Function.comp_def]
    rw [e, List.getElem?_cons_succ, ← ih]
    cases h2 : p si
    · simp [Nat.add_comm 1]
    · simp

theorem compact_ok {α : Type} (qs : QSort) (zero : α) (source : List α) (deletions : List Nat)
    (hd : ∀ d ∈ deletions, d < source.length) :
    compactingCopy qs zero source deletions =
      .ok (keepFrom (fun i => decide (i ∈ deletions)) 0 source,
        idxFrom (fun i => decide (i ∈ deletions)) source.length 0 0) := by
  unfold compactingCopy
  by_cases h0 : deletions.length = 0
  · have : deletions = [] := List.eq_nil_of_length_eq_zero h0
    subst this
    rw [if_pos h0]
    have k1 : ∀ (src : List α) si, keepFrom (fun i => decide (i ∈ ([] : List Nat))) si src = src := by
      intro src
      induction src with
      | nil => intro _; rfl
      | cons a src ih => intro si; unfold keepFrom; rw [ih]; simp
    rw [k1]
    congr 2
    apply List.ext_getElem?
    intro i
    by_cases hi : i < source.length
    · rw [idxFrom_get _ _ _ _ _ hi]
      have : (List.range i).filter (fun _ => true) = List.range i :=
        List.filter_eq_self.mpr (fun _ _ => rfl)
      simp [hi, this]
    · rw [List.getElem?_eq_none (by simp; omega),
        List.getElem?_eq_none (by rw [idxFrom_length]; omega)]
  · rw [if_neg h0]
    have hsort : (qs.sort (fun a b => decide (idxCmp a b ≤ 0)) deletions).Pairwise (· ≤ ·) := by
      have := qs.sorted (fun a b => decide (idxCmp a b ≤ 0)) deletions
        (by intro a b _ _; rw [idxCmp_le, idxCmp_le]; simp; omega)
        (by intro a b c _ _ _; rw [idxCmp_le, idxCmp_le, idxCmp_le]; simp; omega)
      refine this.imp ?_
      intro a b h
      rw [idxCmp_le] at h
      simpa using h
    obtain ⟨u1, u2⟩ := dedup_spec hsort
    simp only
    have hmem : ∀ x, x ∈ dedup (qs.sort (fun a b => decide (idxCmp a b ≤ 0)) deletions) ↔
        x ∈ deletions := by intro x; rw [u2, (qs.perm _ _).mem_iff]
    generalize dedup (qs.sort (fun a b => decide (idxCmp a b ≤ 0)) deletions) = u at *
    rw [assertC_ok (by rw [List.all_eq_true]; intro x hx; simpa using hd x ((hmem x).mp hx)),
      ok_bind]
    have hfun : (fun i => decide (i ∈ deletions)) = (fun i => decide (i ∈ u)) := by
      funext i; rw [decide_eq_decide, hmem]
    rw [hfun]
    have hlen := keepFrom_length u source 0 u u1 (fun x _ => Iff.rfl)
      (fun x hx => by have := hd x ((hmem x).mp hx); omega)
    by_cases hall : u.length = source.length
    · rw [if_pos hall]
      have hk : keepFrom (fun i => decide (i ∈ u)) 0 source = [] :=
        List.eq_nil_of_length_eq_zero (by omega)
      rw [hk]
      congr 2
      -- nothing survives, so every position is deleted
      have hin : ∀ i, i < source.length → i ∈ u := by
        intro i hi
        refine Decidable.byContradiction fun hn => ?_
        have := keepFrom_get (fun i => decide (i ∈ u)) source 0 i hi (by simpa using hn)
        rw [hk, List.getElem?_eq_getElem hi] at this
        simp at this
      apply List.ext_getElem?
      intro i
      by_cases hi : i < source.length
      · rw [idxFrom_get _ _ _ _ _ hi]
        simp [hi, hin i hi]
      · rw [List.getElem?_eq_none (by simp; omega),
          List.getElem?_eq_none (by rw [idxFrom_length]; omega)]
    · rw [if_neg hall, assertC_ok (by simp; omega), ok_bind]
      have hu : u ≠ [] := by
        intro h
        have : deletions = [] := List.eq_nil_iff_forall_not_mem.mpr (fun x hx => by
          have := (hmem x).mpr hx
          rw [h] at this
          simp at this)
        exact h0 (by rw [this]; rfl)
      have := copyLoop_spec u u1 source 0 0 0 false []
        (List.replicate (source.length - u.length) zero) [] (List.replicate source.length 0)
        (fun _ => List.length_pos_iff.mpr hu) (by simp) (by simp)
        (fun x hx => by have := hd x ((hmem x).mp (by simpa using hx)); omega)
        rfl rfl (by simp) (by simp; omega)
      simpa using this

/-- **C15.** For every source and every list of positions to delete (any order, with
repetitions, possibly all): the copy is the surviving elements in their old order; the
index map sends a deleted position to "unset" and a surviving one to the number of
survivors before it, which is where its element now is. Holds for every `qsort` meeting
the C standard. -/
theorem C15_compacting_copy {α : Type} (qs : QSort) (zero : α) (source : List α)
    (deletions : List Nat) (hd : ∀ d ∈ deletions, d < source.length) :
    ∃ target tidx, compactingCopy qs zero source deletions = .ok (target, tidx) ∧
      target = (source.zipIdx.filter (fun q => decide (q.2 ∉ deletions))).map (·.1) ∧
      tidx.length = source.length ∧
      (∀ (i : Nat), i < source.length → i ∈ deletions → tidx[i]? = some UNSET_IDX) ∧
      (∀ (i : Nat), i < source.length → i ∉ deletions →
        tidx[i]? = some (survivorsBefore deletions i) ∧
        target[survivorsBefore deletions i]? = source[i]?) := by
  refine ⟨_, _, compact_ok qs zero source deletions hd, ?_, idxFrom_length _ _ _ _, ?_, ?_⟩
  · rw [keepFrom_zipIdx]; simp
  · intro i hi hm
    rw [idxFrom_get _ _ _ _ _ hi]
    simp [hm]
  · intro i hi hm
    constructor
    · rw [idxFrom_get _ _ _ _ _ hi]
      simp [hm, survivorsBefore]
    · have := keepFrom_get (fun i => decide (i ∈ deletions)) source 0 i hi (by simpa using hm)
      rw [← this]
      simp [survivorsBefore]

/-- Deleting positions 4, 1 (twice) and 2 of six. -/
example : compactingCopy insQSort 0 [10, 11, 12, 13, 14, 15] [4, 1, 2, 1] =
    .ok ([10, 13, 15], [0, UNSET_IDX, UNSET_IDX, 1, UNSET_IDX, 2]) := by decide +kernel

/-- **C15, misuse.** A deletion that is out of range aborts. -/
theorem C15_out_of_range_dies {α : Type} (qs : QSort) (zero : α) (source : List α)
    (deletions : List Nat) (hd : ∃ d ∈ deletions, source.length ≤ d) :
    compactingCopy qs zero source deletions = .error .die := by
  obtain ⟨d, hm, hge⟩ := hd
  unfold compactingCopy
  have h0 : deletions.length ≠ 0 := by
    intro h
    rw [List.eq_nil_of_length_eq_zero h] at hm
    simp at hm
  rw [if_neg h0]
  have hsort : (qs.sort (fun a b => decide (idxCmp a b ≤ 0)) deletions).Pairwise (· ≤ ·) := by
    have := qs.sorted (fun a b => decide (idxCmp a b ≤ 0)) deletions
      (by intro a b _ _; rw [idxCmp_le, idxCmp_le]; simp; omega)
      (by intro a b c _ _ _; rw [idxCmp_le, idxCmp_le, idxCmp_le]; simp; omega)
    refine this.imp ?_
    intro a b h
    rw [idxCmp_le] at h
    simpa using h
  obtain ⟨_, u2⟩ := dedup_spec hsort
  have hm2 : d ∈ dedup (qs.sort (fun a b => decide (idxCmp a b ≤ 0)) deletions) := by
    rw [u2, (qs.perm _ _).mem_iff]; exact hm
  have : (dedup (qs.sort (fun a b => decide (idxCmp a b ≤ 0)) deletions)).all
      (fun d => decide (d < source.length)) = false := by
    rw [List.all_eq_false]
    exact ⟨d, hm2, by simp; omega⟩
  simp only [this, assertC_false, error_bind]

theorem scanUnset_spec (transform : List Nat) : ∀ (src : List Nat) (si : Nat),
    (∀ s ∈ src, s < transform.length) →
    ∃ dels, scanUnset transform src si = .ok dels ∧
      ∀ i, i ∈ dels ↔ si ≤ i ∧ ∃ s, src[i - si]? = some s ∧ transform[s]? = some UNSET_IDX
  | [], si, _ => ⟨[], rfl, by simp⟩
  | s :: src, si, h => by
    obtain ⟨dels, e1, e2⟩ := scanUnset_spec transform src (si + 1) (fun x hx => h x (by simp [hx]))
    have hs := h s (by simp)
    refine ⟨_, by unfold scanUnset; rw [rd_lt hs, ok_bind, e1, ok_bind], ?_⟩
    intro i
    have key : (si + 1 ≤ i ∧ ∃ t, src[i - (si + 1)]? = some t ∧ transform[t]? = some UNSET_IDX) ↔
        (si < i ∧ ∃ t, (s :: src)[i - si]? = some t ∧ transform[t]? = some UNSET_IDX) := by
      constructor
      · rintro ⟨h1, t, h2⟩
        refine ⟨h1, t, ?_⟩
        rw [show i - si = (i - (si + 1)) + 1 by omega, List.getElem?_cons_succ]
        exact h2
      · rintro ⟨h1, t, h2⟩
        refine ⟨h1, t, ?_⟩
        rw [show i - si = (i - (si + 1)) + 1 by omega, List.getElem?_cons_succ] at h2
        exact h2
    by_cases hu : transform[s] = UNSET_IDX
    · rw [if_pos hu, List.mem_cons, e2, key]
      constructor
      · rintro (rfl | ⟨h1, h2⟩)
        · exact ⟨Nat.le_refl _, s, by simp, by rw [List.getElem?_eq_getElem hs, hu]⟩
        · exact ⟨by omega, h2⟩
      · rintro ⟨h1, h2⟩
        by_cases hi : i = si
        · exact Or.inl hi
        · exact Or.inr ⟨by omega, h2⟩
    · rw [if_neg hu, e2, key]
      constructor
      · rintro ⟨h1, h2⟩
        exact ⟨by omega, h2⟩
      · rintro ⟨h1, t, h2, h3⟩
        refine ⟨?_, t, h2, h3⟩
        by_cases hi : i = si
        · subst hi
          simp only [Nat.sub_self, List.getElem?_cons_zero, Option.some.injEq] at h2
          subst h2
          rw [List.getElem?_eq_getElem hs] at h3
          exact absurd (Option.some.inj h3) hu
        · omega

theorem transformAll_spec (transform : List Nat) : ∀ (src : List Nat),
    (∀ s ∈ src, s < transform.length) →
    transformAll transform src = .ok (src.filterMap (fun s => transform[s]?))
  | [], _ => rfl
  | s :: src, h => by
    unfold transformAll
    rw [rd_lt (h s (by simp)), ok_bind, transformAll_spec transform src
      (fun x hx => h x (by simp [hx])), ok_bind, List.filterMap_cons,
      List.getElem?_eq_getElem (h s (by simp))]

/-- **C15, index lists.** `pd_transform_and_compact_indices` renames every entry and drops
exactly those whose new name is "unset"; the order of the others is kept. -/
theorem C15_transform_and_compact (qs : QSort) (source transform : List Nat)
    (h : ∀ s ∈ source, s < transform.length) :
    transformAndCompact qs source transform =
      .ok ((source.filterMap (fun s => transform[s]?)).filter (fun t => decide (t ≠ UNSET_IDX))) := by
  unfold transformAndCompact
  obtain ⟨dels, e1, e2⟩ := scanUnset_spec transform source 0 h
  rw [e1, ok_bind, compact_ok qs 0 source dels]
  · rw [ok_bind]
    have hk : keepFrom (fun i => decide (i ∈ dels)) 0 source =
        source.filter (fun s => decide (transform[s]? ≠ some UNSET_IDX)) := by
      have gen : ∀ (src : List Nat) (si : Nat),
          (∀ (i s : Nat), src[i]? = some s → (si + i ∈ dels ↔ transform[s]? = some UNSET_IDX)) →
          keepFrom (fun i => decide (i ∈ dels)) si src =
            src.filter (fun s => decide (transform[s]? ≠ some UNSET_IDX)) := by
        intro src
        induction src with
        | nil => intros; rfl
        | cons a src ih =>
          intro si hh
          have h0 := hh 0 a (by simp)
          have ih' := ih (si + 1) (fun i s hs => by
            have := hh (i + 1) s (by simpa using hs)
            rw [show si + 1 + i = si + (i + 1) by omega]
            exact this)
          unfold keepFrom
          rw [ih', List.filter_cons]
          simp only [Nat.add_zero] at h0
          by_cases hd : si ∈ dels
          · have := h0.mp hd
            simp [hd, this]
          · have : ¬ transform[a]? = some UNSET_IDX := fun h => hd (h0.mpr h)
            simp [hd, this]
      apply gen
      intro i s hs
      rw [e2]
      constructor
      · rintro ⟨_, t, h1, h2⟩
        rw [Nat.zero_add, Nat.sub_zero, hs] at h1
        cases h1
        exact h2
      · intro h1
        exact ⟨by omega, s, by simpa using hs, h1⟩
    rw [hk]
    simp only
    rw [transformAll_spec _ _ (fun s hs => h s (List.mem_filter.mp hs).1)]
    congr 1
    clear e1 e2 hk
    induction source with
    | nil => rfl
    | cons a src ih =>
      have ha := h a (by simp)
      rw [List.filter_cons, List.filterMap_cons, List.getElem?_eq_getElem ha]
      have ih' := ih (fun s hs => h s (by simp [hs]))
      by_cases hu : transform[a] = UNSET_IDX
      · rw [if_neg (by simp [hu])]
        simpa [hu] using ih'
      · rw [if_pos (by simp [hu]), List.filterMap_cons, List.getElem?_eq_getElem ha]
        simp only
        rw [ih', List.filter_cons, if_pos (by simpa using hu)]
  · intro d hd
    obtain ⟨_, s, h1, _⟩ := (e2 d).mp hd
    have := (List.getElem?_eq_some_iff.mp h1).1
    simpa using this

example : transformAndCompact insQSort [2, 0, 1, 2] [7, UNSET_IDX, 5] = .ok [5, 7, 5] := by
  decide +kernel

end Plc.Buffers
