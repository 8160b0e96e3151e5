import Verif.Model.Buffers
import Verif.Proofs.Basic
import Mathlib.Tactic.Tauto

namespace Plc.Buffers

open Plc.PermM (BSearch)

theorem idxCmp_le (a b : Nat) : decide (idxCmp a b ≤ 0) = decide (a ≤ b) := by
  unfold idxCmp
  by_cases h1 : a > b
  · have : ¬ a < b := by omega
    have h3 : ¬ a ≤ b := by omega
    simp [h1, this, h3]
  · by_cases h2 : a < b
    · simp [h1, h2]; omega
    · simp [h1, h2]; omega

theorem idxCmp_eq (a b : Nat) : idxCmp a b = 0 ↔ a = b := by
  unfold idxCmp; split <;> split <;> omega

theorem idxCmp_pos (a b : Nat) : idxCmp a b > 0 ↔ b < a := by
  unfold idxCmp; split <;> split <;> omega

theorem cmp_mono (x : Nat) {l : List Nat} (h : l.Pairwise (· < ·)) :
    l.Pairwise (fun a b => (idxCmp x b > 0 → idxCmp x a > 0) ∧
      (idxCmp x b = 0 → idxCmp x a ≥ 0)) := by
  refine h.imp ?_
  intro a b hab
  rw [idxCmp_pos, idxCmp_pos, idxCmp_eq]
  refine ⟨by omega, fun hb => ?_⟩
  have := (idxCmp_pos x a).mpr (by omega)
  omega

theorem find_iff (bs : BSearch) (x : Nat) {l : List Nat} (h : l.Pairwise (· < ·)) :
    (bs.find (fun e => idxCmp x e) l).isSome = true ↔ x ∈ l := by
  cases hf : bs.find (fun e => idxCmp x e) l with
  | none =>
    have := bs.miss _ _ (cmp_mono x h) hf
    simp only [Option.isSome_none, Bool.false_eq_true, false_iff]
    intro hx
    exact this x hx ((idxCmp_eq x x).mpr rfl)
  | some i =>
    obtain ⟨a, h1, h2⟩ := bs.hit _ _ _ (cmp_mono x h) hf
    simp only [Option.isSome_some, true_iff]
    rw [(idxCmp_eq x a).mp h2]
    exact List.mem_of_getElem? h1

theorem set_append_len {α : Type} (P : List α) (g a : α) (G : List α) :
    (P ++ g :: G).set P.length a = P ++ a :: G := by simp

/-- Where the insertion belongs. -/
def insS (ins : Nat) (l : List Nat) : List Nat :=
  l.takeWhile (· < ins) ++ ins :: l.dropWhile (· < ins)

/-- After the insertion the loop only copies. -/
theorem insLoop_after (ins : Nat) : ∀ (xs pre : List Nat) (last : Nat) (P G : List Nat),
    ins < last → (∀ x ∈ xs, ins < x) → G.length = xs.length → P.length = pre.length + 2 →
    insLoop (pre ++ last :: xs) ins xs.length (pre.length + 1) (pre.length + 2) (P ++ G) =
      .ok (P ++ xs, pre.length + 1 + xs.length, pre.length + 2 + xs.length) := by
  intro xs
  induction xs with
  | nil =>
    intro pre last P G _ _ hG _
    have : G = [] := List.eq_nil_of_length_eq_zero (by simpa using hG)
    subst this
    rfl
  | cons x xs ih =>
    intro pre last P G h1 h2 hG hP
    obtain ⟨g, G, rfl⟩ : ∃ g G', G = g :: G' := by
      cases G with
      | nil => simp at hG
      | cons g G => exact ⟨g, G, rfl⟩
    simp only [List.length_cons]
    unfold insLoop
    rw [Nat.add_sub_cancel, rd_ok (a := last) (by simp), ok_bind, rd_ok (a := x) (by simp), ok_bind,
      if_neg (by omega), ← hP, wr_lt (by simp), ok_bind, set_append_len]
    have hx := h2 x (by simp)
    have := ih (pre ++ [last]) x (P ++ [x]) G hx (fun y hy => h2 y (by simp [hy]))
      (by simpa using hG) (by simp [hP])
    simp only [List.length_append, List.length_cons, List.length_nil, List.append_assoc,
      List.cons_append, List.nil_append, Nat.zero_add] at this
    rw [hP]
    rw [show pre.length + 1 + 2 = pre.length + 2 + 1 by omega] at this
    rw [this]
    congr 3 <;> omega

/-- The whole loop and the final store. -/
theorem insLoop_before (ins : Nat) : ∀ (xs pre : List Nat) (last : Nat) (P G : List Nat),
    last < ins → xs.Pairwise (· < ·) → ins ∉ xs → G.length = xs.length + 1 →
    P.length = pre.length + 1 →
    (do let (nb, i, j) ← insLoop (pre ++ last :: xs) ins xs.length (pre.length + 1)
          (pre.length + 1) (P ++ G)
        if i = j then wr nb j ins else .ok nb) = (.ok (P ++ insS ins xs) : Res (List Nat)) := by
  intro xs
  induction xs with
  | nil =>
    intro pre last P G _ _ _ hG hP
    obtain ⟨g, rfl⟩ : ∃ g, G = [g] := List.length_eq_one_iff.mp (by simpa using hG)
    simp only [List.length_nil, insLoop, ok_bind, if_true]
    rw [← hP, wr_lt (by simp), set_append_len]
    rfl
  | cons x xs ih =>
    intro pre last P G h1 h2 h3 hG hP
    obtain ⟨g, G, rfl⟩ : ∃ g G', G = g :: G' := by
      cases G with
      | nil => simp at hG
      | cons g G => exact ⟨g, G, rfl⟩
    simp only [List.length_cons]
    unfold insLoop
    rw [Nat.add_sub_cancel, rd_ok (a := last) (by simp), ok_bind, rd_ok (a := x) (by simp), ok_bind]
    rw [List.pairwise_cons] at h2
    by_cases hx : ins < x
    · rw [if_pos ⟨h1, hx⟩]
      obtain ⟨g', G, rfl⟩ : ∃ g G', G = g :: G' := by
        cases G with
        | nil => simp at hG
        | cons g G => exact ⟨g, G, rfl⟩
      rw [← hP, wr_lt (by simp), ok_bind, set_append_len, hP]
      have e : (P ++ ins :: g' :: G).set (pre.length + 1 + 1) x = P ++ ins :: x :: G := by
        rw [← hP, show P ++ ins :: g' :: G = (P ++ [ins]) ++ g' :: G by simp,
          show P.length + 1 = (P ++ [ins]).length by simp, set_append_len]
        simp
      rw [wr_lt (by simp; omega), ok_bind, e]
      have := insLoop_after ins xs (pre ++ [last]) x (P ++ [ins, x]) G hx
        (fun y hy => by have := h2.1 y hy; omega) (by simpa using hG) (by simp [hP])
      simp only [List.length_append, List.length_cons, List.length_nil, List.append_assoc,
        List.cons_append, List.nil_append, Nat.zero_add] at this
      rw [show pre.length + 1 + 2 = pre.length + 3 by omega] at *
      rw [this]
      simp only [ok_bind]
      rw [if_neg (by omega)]
      have : ¬ x < ins := by omega
      simp [insS, this]
    · have hne : x ≠ ins := fun h => h3 (by simp [h])
      have hlt : x < ins := by omega
      rw [if_neg (by omega), ← hP, wr_lt (by simp), ok_bind, set_append_len]
      have := ih (pre ++ [last]) x (P ++ [x]) G hlt h2.2 (fun h => h3 (by simp [h]))
        (by simpa using hG) (by simp [hP])
      simp only [List.length_append, List.length_cons, List.length_nil, List.append_assoc,
        List.cons_append, List.nil_append, Nat.zero_add] at this
      rw [hP, this]
      simp [insS, hlt]

theorem insS_sorted (ins : Nat) : ∀ (l : List Nat), l.Pairwise (· < ·) → ins ∉ l →
    (insS ins l).Pairwise (· < ·)
  | [], _, _ => by simp [insS]
  | x :: xs, h, hn => by
    rw [List.pairwise_cons] at h
    have hne : x ≠ ins := fun h => hn (by simp [h])
    by_cases hx : x < ins
    · have e : insS ins (x :: xs) = x :: insS ins xs := by simp [insS, hx]
      rw [e, List.pairwise_cons]
      refine ⟨?_, insS_sorted ins xs h.2 (fun h => hn (by simp [h]))⟩
      intro y hy
      unfold insS at hy
      rw [List.mem_append, List.mem_cons] at hy
      rcases hy with hy | rfl | hy
      · exact h.1 y ((List.takeWhile_sublist _).mem hy)
      · exact hx
      · exact h.1 y ((List.dropWhile_sublist _).mem hy)
    · have e : insS ins (x :: xs) = ins :: x :: xs := by simp [insS, hx]
      rw [e, List.pairwise_cons]
      refine ⟨?_, List.pairwise_cons.mpr h⟩
      intro y hy
      rw [List.mem_cons] at hy
      rcases hy with rfl | hy
      · omega
      · have := h.1 y hy; omega

theorem insS_mem (ins : Nat) (l : List Nat) (x : Nat) : x ∈ insS ins l ↔ x = ins ∨ x ∈ l := by
  unfold insS
  rw [List.mem_append, List.mem_cons]
  conv => rhs; rw [← List.takeWhile_append_dropWhile (p := (· < ins)) (l := l)]
  rw [List.mem_append]
  tauto

theorem insert_spec (bs : BSearch) (junk : Nat) {buf : List Nat} (hs : buf.Pairwise (· < ·))
    (h0 : buf ≠ []) (ins : Nat) :
    insert bs junk (some buf) ins = .ok (if ins ∈ buf then buf else insS ins buf) := by
  unfold insert
  have hl : buf.length ≠ 0 := by simpa using h0
  simp only [if_neg hl]
  by_cases hm : ins ∈ buf
  · rw [if_pos hm, if_pos ((find_iff bs ins hs).mpr hm)]
  · rw [if_neg hm, if_neg (fun h => hm ((find_iff bs ins hs).mp h))]
    cases buf with
    | nil => exact absurd rfl h0
    | cons x xs =>
      rw [rd_ok (a := x) (by simp), ok_bind]
      have hne : x ≠ ins := fun h => hm (by simp [h])
      by_cases hx : ins < x
      · rw [if_pos hx]
        have : ¬ x < ins := by omega
        simp [insS, this]
      · have hlt : x < ins := by omega
        rw [if_neg hx]
        simp only [List.length_cons, List.replicate_succ]
        rw [wr_lt (by simp), ok_bind]
        have := insLoop_before ins xs [] x [x] (junk :: List.replicate xs.length junk) hlt
          (List.pairwise_cons.mp hs).2 (fun h => hm (by simp [h])) (by simp) (by simp)
        simp only [List.length_nil, List.nil_append, Nat.zero_add, List.cons_append] at this
        simp only [List.set_cons_zero, Nat.add_sub_cancel]
        rw [this]
        simp [insS, hlt]

/-! ### Compacting copy -/

theorem dedupFrom_spec : ∀ (l : List Nat) (last : Nat), (last :: l).Pairwise (· ≤ ·) →
    (dedupFrom last l).Pairwise (· < ·) ∧ (∀ x ∈ dedupFrom last l, last < x) ∧
      ∀ x, (x = last ∨ x ∈ dedupFrom last l) ↔ (x = last ∨ x ∈ l)
  | [], last, _ => by simp [dedupFrom]
  | d :: ds, last, h => by
    rw [List.pairwise_cons] at h
    unfold dedupFrom
    by_cases hd : last = d
    · subst hd
      obtain ⟨h1, h2, h3⟩ := dedupFrom_spec ds last h.2
      simp only [ne_eq, not_true_eq_false, if_false]
      refine ⟨h1, h2, ?_⟩
      intro x
      rw [h3, List.mem_cons]
      tauto
    · obtain ⟨h1, h2, h3⟩ := dedupFrom_spec ds d h.2
      simp only [ne_eq, hd, not_false_eq_true, if_true]
      have hlt : last < d := by have := h.1 d (by simp); omega
      refine ⟨List.pairwise_cons.mpr ⟨h2, h1⟩, ?_, ?_⟩
      · intro x hx
        rw [List.mem_cons] at hx
        rcases hx with rfl | hx
        · exact hlt
        · have := h2 x hx; omega
      · intro x
        rw [List.mem_cons, List.mem_cons, h3]

theorem dedup_spec {l : List Nat} (h : l.Pairwise (· ≤ ·)) :
    (dedup l).Pairwise (· < ·) ∧ ∀ x, x ∈ dedup l ↔ x ∈ l := by
  cases l with
  | nil => simp [dedup]
  | cons d ds =>
    obtain ⟨h1, h2, h3⟩ := dedupFrom_spec ds d h
    refine ⟨List.pairwise_cons.mpr ⟨h2, h1⟩, ?_⟩
    intro x
    unfold dedup
    rw [List.mem_cons, List.mem_cons]
    exact h3 x

/-- Elements that stay, and the new indices, for a source whose first index is `si`. -/
def keepFrom {α : Type} (del : Nat → Bool) : Nat → List α → List α
  | _, [] => []
  | si, a :: src => if del si then keepFrom del (si + 1) src else a :: keepFrom del (si + 1) src

def idxFrom (del : Nat → Bool) : Nat → Nat → Nat → List Nat
  | 0, _, _ => []
  | n + 1, si, ti => if del si then UNSET_IDX :: idxFrom del n (si + 1) ti
      else ti :: idxFrom del n (si + 1) (ti + 1)

theorem keepFrom_length {α : Type} (dels : List Nat) : ∀ (src : List α) (si : Nat) (rest : List Nat),
    rest.Pairwise (· < ·) → (∀ x, si ≤ x → (x ∈ dels ↔ x ∈ rest)) →
    (∀ x ∈ rest, si ≤ x ∧ x < si + src.length) →
    (keepFrom (fun i => decide (i ∈ dels)) si src).length + rest.length = src.length := by
  intro src
  induction src with
  | nil =>
    intro si rest _ _ h3
    cases rest with
    | nil => rfl
    | cons d rest => have := h3 d (by simp); simp at this; omega
  | cons a src ih =>
    intro si rest h1 h2 h3
    simp only [List.length_cons] at *
    unfold keepFrom
    by_cases hd : si ∈ dels
    · have hm := (h2 si (Nat.le_refl _)).mp hd
      cases rest with
      | nil => simp at hm
      | cons d rest =>
        rw [List.pairwise_cons] at h1
        have hds : d = si := by
          rw [List.mem_cons] at hm
          rcases hm with hm | hm
          · exact hm.symm
          · have e1 := h1.1 si hm
            have e2 := (h3 d (by simp)).1
            omega
        subst hds
        have := ih (d + 1) rest h1.2 (fun x hx => by
          rw [h2 x (by omega), List.mem_cons]
          constructor
          · rintro (rfl | h)
            · omega
            · exact h
          · exact Or.inr) (fun x hx => by
          have e1 := h1.1 x hx
          have e2 := h3 x (by simp [hx])
          omega)
        simp only [hd, decide_true, if_true, List.length_cons]
        omega
    · have hm : si ∉ rest := fun h => hd ((h2 si (Nat.le_refl _)).mpr h)
      have := ih (si + 1) rest h1 (fun x hx => h2 x (by omega)) (fun x hx => by
        have e := h3 x hx
        have : x ≠ si := fun h => hm (h ▸ hx)
        omega)
      simp only [hd, decide_false, Bool.false_eq_true, if_false, List.length_cons]
      omega

theorem copyLoop_spec {α : Type} (dels : List Nat) (hd : dels.Pairwise (· < ·)) :
    ∀ (src : List α) (si ti di : Nat) (used : Bool) (T Z : List α) (I J : List Nat),
    (used = false → di < dels.length) → (used = true → di = dels.length) →
    (∀ x ∈ dels.take di, x < si) → (∀ x ∈ dels.drop di, si ≤ x ∧ x < si + src.length) →
    T.length = ti → I.length = si → J.length = src.length →
    Z.length + (dels.drop di).length = src.length →
    copyLoop dels src si ti di used (T ++ Z) (I ++ J) =
      .ok (T ++ keepFrom (fun i => decide (i ∈ dels)) si src,
           I ++ idxFrom (fun i => decide (i ∈ dels)) src.length si ti) := by
  intro src
  induction src with
  | nil =>
    intro si ti di used T Z I J _ _ _ _ _ _ hJ hZ
    have : J = [] := List.eq_nil_of_length_eq_zero (by simpa using hJ)
    subst this
    have : Z = [] := List.eq_nil_of_length_eq_zero (by simp only [List.length_nil] at hZ; omega)
    subst this
    rfl
  | cons a src ih =>
    intro si ti di used T Z I J hu1 hu2 hlow hhigh hT hI hJ hZ
    obtain ⟨g, J, rfl⟩ : ∃ g G', J = g :: G' := by
      cases J with
      | nil => simp at hJ
      | cons g G => exact ⟨g, G, rfl⟩
    simp only [List.length_cons, List.length_drop] at *
    have hsplit : ∀ x, x ∈ dels ↔ x ∈ dels.take di ∨ x ∈ dels.drop di := by
      intro x
      conv => lhs; rw [← List.take_append_drop di dels]
      rw [List.mem_append]
    unfold copyLoop
    have hdle : di ≤ dels.length := by cases used with
      | false => have := hu1 rfl; omega
      | true => have := hu2 rfl; omega
    -- the test
    have htest : (if used then .ok false else do
        let d ← rd dels di
        .ok (decide (si = d)) : Res Bool) = .ok (decide (si ∈ dels)) := by
      cases used with
      | true =>
        have h1 := hu2 rfl
        have : si ∉ dels := by
          rw [hsplit]
          rintro (h | h)
          · have := hlow si h; omega
          · rw [h1] at h; simp at h
        simp [this]
      | false =>
        have h1 := hu1 rfl
        simp only [Bool.false_eq_true, if_false]
        rw [rd_lt h1, ok_bind]
        congr 1
        rw [decide_eq_decide]
        constructor
        · intro h; rw [h]; exact List.getElem_mem h1
        · intro h
          have h2 : si ∈ dels.drop di := by
            rcases (hsplit si).mp h with h | h
            · have := hlow si h; omega
            · exact h
          rw [List.drop_eq_getElem_cons h1, List.mem_cons] at h2
          rcases h2 with h2 | h2
          · exact h2
          · have h3 : dels[di] < si := by
              have := hd.sublist (List.drop_sublist di dels)
              rw [List.drop_eq_getElem_cons h1, List.pairwise_cons] at this
              exact this.1 si h2
            have := (hhigh dels[di] (by rw [List.drop_eq_getElem_cons h1]; exact List.mem_cons_self)).1
            omega
    rw [htest, ok_bind]
    by_cases hm : si ∈ dels
    · have hm2 : si ∈ dels.drop di := by
        rcases (hsplit si).mp hm with h | h
        · have := hlow si h; omega
        · exact h
      have h1 : di < dels.length := by
        rcases Nat.lt_or_ge di dels.length with h | h
        · exact h
        · rw [List.drop_eq_nil_of_le h] at hm2; simp at hm2
      have hpw := hd.sublist (List.drop_sublist di dels)
      rw [List.drop_eq_getElem_cons h1] at hpw hm2 hhigh
      rw [List.pairwise_cons] at hpw
      have hsi : dels[di] = si := by
        rw [List.mem_cons] at hm2
        rcases hm2 with h | h
        · exact h.symm
        · have e1 := hpw.1 si h
          have e2 := (hhigh dels[di] List.mem_cons_self).1
          omega
      simp only [hm, decide_true, if_true]
      have hset : (I ++ g :: J).set si UNSET_IDX = (I ++ [UNSET_IDX]) ++ J := by
        rw [← hI, set_append_len]; simp
      rw [wr_lt (by simp; omega), ok_bind, hset]
      have := ih (si + 1) ti (di + 1) (decide (di + 1 ≥ dels.length)) T Z (I ++ [UNSET_IDX]) J
        (by intro h; simpa using h) (by intro h; have : dels.length ≤ di + 1 := by simpa using h
                                        omega)
        (by
          intro x hx
          rw [List.take_add_one, List.mem_append] at hx
          rcases hx with hx | hx
          · have := hlow x hx; omega
          · simp [h1] at hx; omega)
        (by
          intro x hx
          have e1 := hpw.1 x hx
          have e2 := hhigh x (List.mem_cons_of_mem _ hx)
          omega)
        hT (by simp [hI]) (by simpa using hJ) (by omega)
      rw [this]
      simp [keepFrom, idxFrom, hm]
    · simp only [hm, decide_false, Bool.false_eq_true, if_false]
      have hzl : 0 < Z.length := by
        -- a survivor exists, so the rest of the target is not empty
        have hb : ∀ x ∈ dels.drop di, si + 1 ≤ x ∧ x < si + 1 + src.length := by
          intro x hx
          have := hhigh x hx
          have hne : x ≠ si := fun h => hm ((hsplit si).mpr (Or.inr (h ▸ hx)))
          omega
        have := keepFrom_length dels src (si + 1) (dels.drop di)
          (hd.sublist (List.drop_sublist _ _))
          (fun x hx => by
            rw [hsplit]
            constructor
            · rintro (h | h)
              · have := hlow x h; omega
              · exact h
            · exact Or.inr) hb
        rw [List.length_drop] at this
        omega
      obtain ⟨z, Z, rfl⟩ : ∃ g G', Z = g :: G' := by
        cases Z with
        | nil => simp at hzl
        | cons g G => exact ⟨g, G, rfl⟩
      have hset : (I ++ g :: J).set si ti = (I ++ [ti]) ++ J := by
        rw [← hI, set_append_len]; simp
      have hset2 : (T ++ z :: Z).set ti a = (T ++ [a]) ++ Z := by
        rw [← hT, set_append_len]; simp
      rw [wr_lt (by simp; omega), ok_bind, wr_lt (by simp; omega), ok_bind, hset, hset2]
      have := ih (si + 1) (ti + 1) di used (T ++ [a]) Z (I ++ [ti]) J hu1 hu2
        (fun x hx => by have := hlow x hx; omega)
        (by
          intro x hx
          have := hhigh x hx
          have hne : x ≠ si := fun h => hm ((hsplit si).mpr (Or.inr (h ▸ hx)))
          omega)
        (by simp [hT]) (by simp [hI]) (by simpa using hJ)
        (by simp only [List.length_cons] at hZ; omega)
      rw [this]
      simp [keepFrom, idxFrom, hm]

end Plc.Buffers
