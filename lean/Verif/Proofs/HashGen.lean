import Verif.Model.HashGen
import Verif.Props.Hash
import Verif.Proofs.Shape
import Mathlib.Algebra.BigOperators.Group.List.Basic
import Mathlib.Data.List.Count
import Mathlib.Data.List.Dedup

namespace Plc.HashGen

open Plc.Cmp Plc.Hash

/-! ### The table of incident faces -/

/-- The numbers of the faces on which an edge lies, with repetitions, from face number `i` on. -/
def occ : List Face → Nat → Nat → List Nat
  | [], _, _ => []
  | f :: l, i, e => List.replicate (f.edge.count e) i ++ occ l (i + 1) e

/-- The table holds the first two members of each list. -/
def Tab (m : Nat) (t : List (Option Nat × Option Nat)) (g : Nat → List Nat) : Prop :=
  t.length = m ∧ ∀ e, e < m → (g e).length ≤ 2 ∧ t[e]? = some ((g e)[0]?, (g e)[1]?)

theorem Tab.congr {m : Nat} {t : List (Option Nat × Option Nat)} {g g' : Nat → List Nat} (h : Tab m t g)
    (hg : ∀ e, e < m → g' e = g e) : Tab m t g' :=
  ⟨h.1, fun e he => by rw [hg e he]; exact h.2 e he⟩

theorem addFace_ok {m : Nat} {t : List (Option Nat × Option Nat)} {g : Nat → List Nat} (h : Tab m t g) {face te : Nat}
    (hte : te < m) (h2 : (g te).length < 2) :
    ∃ t', addFace t face te = .ok t' ∧ Tab m t' (fun e => if e = te then g e ++ [face] else g e) := by
  have ht := (h.2 te hte).2
  have hlt : te < t.length := by rw [h.1]; exact hte
  unfold addFace
  rw [rd_eq_ok.mpr ht, ok_bind]
  match hg : g te, h2 with
  | [], _ =>
    rw [hg] at ht
    simp only [List.getElem?_nil]
    rw [wr_lt hlt]
    refine ⟨_, rfl, by rw [List.length_set]; exact h.1, ?_⟩
    intro e he
    by_cases hee : e = te
    · subst hee
      simp [hg, hlt]
    · beta_reduce
      rw [if_neg hee, List.getElem?_set_ne (Ne.symm hee)]
      exact h.2 e he
  | [a], _ =>
    rw [hg] at ht
    simp only [List.getElem?_cons_zero]
    rw [List.getElem?_eq_none (by simp)]
    simp only
    rw [wr_lt hlt]
    refine ⟨_, rfl, by rw [List.length_set]; exact h.1, ?_⟩
    intro e he
    by_cases hee : e = te
    · subst hee
      simp [hg, hlt]
    · beta_reduce
      rw [if_neg hee, List.getElem?_set_ne (Ne.symm hee)]
      exact h.2 e he

theorem addEdges_ok {m : Nat} (face : Nat) : ∀ (l : List Nat) (t : List (Option Nat × Option Nat)) (g : Nat → List Nat),
    Tab m t g → (∀ x ∈ l, x < m) → (∀ e, e < m → (g e).length + l.count e ≤ 2) →
    ∃ t', addEdges face l t = .ok t' ∧ Tab m t' (fun e => g e ++ List.replicate (l.count e) face)
  | [], t, g, h, _, _ => ⟨t, rfl, h.congr (by intro e _; simp)⟩
  | te :: l, t, g, h, hl, hc => by
    have hte := hl te (by simp)
    have h2 := hc te hte
    rw [List.count_cons_self] at h2
    obtain ⟨t1, a1, a2⟩ := addFace_ok h (face := face) hte (by omega)
    obtain ⟨t2, b1, b2⟩ := addEdges_ok face l t1 _ a2 (fun x hx => hl x (by simp [hx])) (by
      intro e he
      have := hc e he
      rw [List.count_cons] at this
      by_cases hee : e = te
      · subst hee
        simp only [beq_self_eq_true, if_true] at this
        simp only [if_true, List.length_append, List.length_singleton]
        omega
      · rw [if_neg hee]
        omega)
    refine ⟨t2, by rw [addEdges, a1, ok_bind, b1], b2.congr ?_⟩
    intro e he
    rw [List.count_cons]
    by_cases hee : e = te
    · subst hee
      simp only [beq_self_eq_true, if_true, List.append_assoc]
      rw [List.replicate_succ]
      rfl
    · have : (te == e) = false := by simpa using Ne.symm hee
      rw [if_neg hee, this]
      simp

theorem addFaces_ok {m : Nat} : ∀ (l : List Face) (i : Nat) (t : List (Option Nat × Option Nat)) (g : Nat → List Nat),
    Tab m t g → (∀ f ∈ l, ∀ x ∈ f.edge, x < m) → (∀ e, e < m → (g e).length + (occ l i e).length ≤ 2) →
    ∃ t', addFaces l i t = .ok t' ∧ Tab m t' (fun e => g e ++ occ l i e)
  | [], i, t, g, h, _, _ => ⟨t, rfl, h.congr (by intro e _; simp [occ])⟩
  | f :: l, i, t, g, h, hl, hc => by
    obtain ⟨t1, a1, a2⟩ := addEdges_ok i f.edge t g h (hl f (by simp)) (by
      intro e he
      have := hc e he
      rw [occ, List.length_append, List.length_replicate] at this
      omega)
    obtain ⟨t2, b1, b2⟩ := addFaces_ok l (i + 1) t1 _ a2 (fun f' hf' => hl f' (by simp [hf'])) (by
      intro e he
      have := hc e he
      rw [occ, List.length_append, List.length_replicate] at this
      rw [List.length_append, List.length_replicate]
      omega)
    refine ⟨t2, by rw [addFaces, a1, ok_bind, b1], b2.congr ?_⟩
    intro e he
    rw [occ, List.append_assoc]

theorem allSet_ok : ∀ (t : List (Option Nat × Option Nat)) (r : List (Nat × Nat)), t.length = r.length →
    (∀ (e : Nat) (p : Nat × Nat), r[e]? = some p → t[e]? = some (some p.1, some p.2)) → allSet t = .ok r
  | [], [], _, _ => rfl
  | x :: t, p :: r, hl, h => by
    have h0 := h 0 p rfl
    simp only [List.getElem?_cons_zero, Option.some.injEq] at h0
    subst h0
    rw [allSet, allSet_ok t r (by simpa using hl) (fun e q hq => h (e + 1) q hq), ok_bind]

/-- The two faces of an edge. -/
def two (F : List Face) (e : Nat) : Nat × Nat := ((occ F 0 e)[0]!, (occ F 0 e)[1]!)

/-- Every edge lies on exactly two places of faces. -/
structure Twice (m : Nat) (F : List Face) : Prop where
  lt : ∀ f ∈ F, ∀ x ∈ f.edge, x < m
  two : ∀ e, e < m → (occ F 0 e).length = 2
  ne : ∀ f ∈ F, f.edge ≠ []

theorem table_ok {m : Nat} {F : List Face} (h : Twice m F) :
    ∃ t, addFaces F 0 (List.replicate m (none, none)) = .ok t ∧
      allSet t = .ok ((List.range m).map (two F)) := by
  obtain ⟨t, t1, t2⟩ := addFaces_ok F 0 (List.replicate m (none, none)) (fun _ => [])
    ⟨by simp, fun e he => ⟨by simp, by simp [he]⟩⟩ h.lt (by intro e he; rw [h.two e he]; simp)
  refine ⟨t, t1, allSet_ok _ _ (by simp [t2.1]) ?_⟩
  intro e p hp
  rw [List.getElem?_map, Option.map_eq_some_iff] at hp
  obtain ⟨e', h1, rfl⟩ := hp
  have he' := (List.getElem?_eq_some_iff.mp h1)
  obtain ⟨h3, h4⟩ := he'
  rw [List.getElem_range] at h4
  subst h4
  rw [List.length_range] at h3
  rw [(t2.2 e h3).2]
  have h5 := h.two e h3
  simp only [List.nil_append, two]
  rw [List.getElem?_eq_getElem (by omega), List.getElem?_eq_getElem (by omega), getElem!_pos _ _ (by omega),
    getElem!_pos _ _ (by omega)]

theorem count_occ : ∀ (l : List Face) (i e k : Nat),
    (occ l i e).count k = if i ≤ k then ((l[k - i]?).map (fun f => f.edge.count e)).getD 0 else 0
  | [], i, e, k => by simp [occ]
  | f :: l, i, e, k => by
    rw [occ, List.count_append, count_occ l (i + 1) e k, List.count_replicate]
    by_cases h : k = i
    · subst h
      simp
    · have h1 : (i == k) = false := by simpa using Ne.symm h
      rw [h1]
      by_cases h2 : i ≤ k
      · rw [if_pos h2, if_pos (show i + 1 ≤ k by omega), show k - i = (k - (i + 1)) + 1 by omega]
        simp
      · rw [if_neg h2, if_neg (show ¬ i + 1 ≤ k by omega)]
        rfl

theorem count_occ0 (F : List Face) (e k : Nat) :
    (occ F 0 e).count k = ((F[k]?).map (fun f => f.edge.count e)).getD 0 := by
  rw [count_occ, if_pos (Nat.zero_le _), Nat.sub_zero]

theorem mem_occ {F : List Face} {e k : Nat} : k ∈ occ F 0 e ↔ ∃ f, F[k]? = some f ∧ e ∈ f.edge := by
  rw [← List.count_pos_iff, count_occ0]
  cases h : F[k]? with
  | none => simp
  | some f => simp [List.count_pos_iff]

/-! ### The face across an edge -/

/-- The face across edge `e` of face `i`. -/
def across (F : List Face) (i e : Nat) : Nat := if (two F e).1 = i then (two F e).2 else (two F e).1

theorem occ_eq {m : Nat} {F : List Face} (h : Twice m F) {e : Nat} (he : e < m) :
    occ F 0 e = [(two F e).1, (two F e).2] := by
  have h2 := h.two e he
  unfold two
  match occ F 0 e, h2 with
  | [a, b], _ => rfl

theorem across_perm {m : Nat} {F : List Face} (h : Twice m F) {i e : Nat} {f : Face} (hf : F[i]? = some f)
    (he : e ∈ f.edge) : (occ F 0 e).Perm [i, across F i e] := by
  have hlt := h.lt f (List.mem_of_getElem? hf) e he
  have hm := mem_occ.mpr ⟨f, hf, he⟩
  rw [occ_eq h hlt] at hm ⊢
  unfold across
  simp only [List.mem_cons, List.not_mem_nil, or_false] at hm
  by_cases h1 : (two F e).1 = i
  · rw [if_pos h1, h1]
  · rw [if_neg h1]
    have h2 : (two F e).2 = i := by
      rcases hm with h3 | h3
      · exact absurd h3.symm h1
      · exact h3.symm
    rw [h2]
    exact List.Perm.swap _ _ _

theorem across_lt {m : Nat} {F : List Face} (h : Twice m F) {i e : Nat} {f : Face} (hf : F[i]? = some f)
    (he : e ∈ f.edge) : across F i e < F.length := by
  have : across F i e ∈ occ F 0 e := (across_perm h hf he).mem_iff.mpr (by simp)
  obtain ⟨g, hg, -⟩ := mem_occ.mp this
  exact (List.getElem?_eq_some_iff.mp hg).1

theorem adjacent_ok {m : Nat} (F : List Face) (i : Nat) : ∀ (l : List Nat), (∀ x ∈ l, x < m) →
    adjacent ((List.range m).map (two F)) i l = .ok (l.map (across F i))
  | [], _ => rfl
  | e :: l, h => by
    have he := h e (by simp)
    rw [adjacent, rd_eq_ok.mpr (show ((List.range m).map (two F))[e]? = some (two F e) by simp [he]), ok_bind,
      adjacent_ok F i l (fun x hx => h x (by simp [hx])), ok_bind]
    rfl

/-- Number of edges of a face. -/
def sz (F : List Face) (i : Nat) : Nat := ((F[i]?).map (fun f => f.edge.length)).getD 0

theorem sizesOf_ok (F : List Face) : ∀ (l : List Nat), (∀ x ∈ l, x < F.length) → sizesOf F l = .ok (l.map (sz F))
  | [], _ => rfl
  | a :: l, h => by
    have ha := h a (by simp)
    rw [sizesOf, rd_lt ha, ok_bind, sizesOf_ok F l (fun x hx => h x (by simp [hx])), ok_bind, List.map_cons, sz,
      List.getElem?_eq_getElem ha]
    rfl

/-! ### Counting -/

theorem dups_ok : ∀ (l : List Nat), l ≠ [] → l.Pairwise (· ≤ ·) → dups l = .ok (l.length - l.toFinset.card)
  | [a], _, _ => by simp [dups]
  | a :: b :: l, _, h => by
    rw [dups, dups_ok (b :: l) (by simp) (List.pairwise_cons.mp h).2, ok_bind]
    have hle := List.toFinset_card_le (b :: l)
    rw [List.pairwise_cons] at h
    by_cases hab : a = b
    · subst hab
      rw [if_pos rfl]
      have : (a :: a :: l).toFinset = (a :: l).toFinset := by ext x; simp
      rw [this]
      simp only [List.length_cons] at hle ⊢
      congr 1
      omega
    · rw [if_neg hab]
      have hna : a ∉ (b :: l).toFinset := by
        rw [List.mem_toFinset]
        intro hmem
        have h1 := h.1 b (by simp)
        rcases List.mem_cons.mp hmem with h2 | h2
        · exact hab h2
        · have := (List.pairwise_cons.mp h.2).1 a h2
          omega
      have : (a :: b :: l).toFinset.card = (b :: l).toFinset.card + 1 := by
        rw [List.toFinset_cons, Finset.card_insert_of_notMem hna]
      rw [this]
      simp only [List.length_cons] at hle ⊢
      congr 1
      omega

/-- A table of seven counters. -/
def seven (g : Nat → Nat) : List Nat := (List.range 7).map g

theorem bump_ok : ∀ (l : List Nat) (g : Nat → Nat), bump l (seven g) = .ok (seven (fun s => g s + l.count s))
  | [], g => by simp [bump]
  | s :: l, g => by
    unfold bump
    split
    · rename_i hs
      have h1 : (seven g)[s]? = some (g s) := by simp [seven, hs]
      have h2 : (seven g).set s (g s + 1) = seven (fun x => if x = s then g x + 1 else g x) := by
        apply List.ext_getElem?
        intro i
        rw [List.getElem?_set]
        unfold seven
        by_cases hi : s = i
        · subst hi
          simp [hs]
        · rw [if_neg hi]
          by_cases h7 : i < 7
          · simp [h7, Ne.symm hi]
          · simp [h7]
      rw [rd_eq_ok.mpr h1, ok_bind, wr_lt (by simpa [seven] using hs), ok_bind, h2, bump_ok l]
      congr 2
      funext x
      rw [List.count_cons]
      by_cases hx : x = s
      · subst hx; simp; omega
      · have : (s == x) = false := by simpa using Ne.symm hx
        rw [if_neg hx, this]
        simp
    · rename_i hs
      rw [bump_ok l]
      congr 1
      unfold seven
      apply List.map_congr_left
      intro x hx
      rw [List.mem_range] at hx
      rw [List.count_cons_of_ne (by omega)]

/-- The numbers of edges of the faces around a face. -/
def around (F : List Face) (i : Nat) : List Nat := ((F[i]?).map (fun f => (f.edge.map (across F i)).map (sz F))).getD []

/-- Repeated neighbours of a face. -/
def rep (F : List Face) (i : Nat) : Nat :=
  ((F[i]?).map (fun f => f.edge.length - (f.edge.map (across F i)).toFinset.card)).getD 0

/-- Neighbours with `s` edges, if the face has `k`. -/
def nb (F : List Face) (k s i : Nat) : Nat := if sz F i = k then (around F i).count s else 0

theorem oneFace_ok (qs : QSort) {m : Nat} {F : List Face} (h : Twice m F) {i : Nat} {f : Face} (hf : F[i]? = some f)
    (d : Nat) (g1 g2 g3 : Nat → Nat) :
    oneFace qs F ((List.range m).map (two F)) i f ⟨d, seven g1, seven g2, seven g3⟩ =
      .ok ⟨d + rep F i, seven (fun s => g1 s + nb F 1 s i), seven (fun s => g2 s + nb F 2 s i),
        seven (fun s => g3 s + nb F 3 s i)⟩ := by
  have hmem := List.mem_of_getElem? hf
  have hsz : sz F i = f.edge.length := by rw [sz, hf]; rfl
  have har : around F i = (f.edge.map (across F i)).map (sz F) := by rw [around, hf]; rfl
  have hrep : rep F i = f.edge.length - (f.edge.map (across F i)).toFinset.card := by rw [rep, hf]; rfl
  unfold oneFace
  rw [adjacent_ok F i f.edge (h.lt f hmem), ok_bind]
  simp only
  generalize hl : f.edge.map (across F i) = l at *
  have hperm := qs.perm (fun x y => decide (Buffers.idxCmp x y ≤ 0)) l
  have hle : ∀ x y : Nat, decide (Buffers.idxCmp x y ≤ 0) = decide (x ≤ y) := by
    intro x y
    rw [decide_eq_decide]
    unfold Buffers.idxCmp
    split_ifs <;> omega
  have hsort : (qs.sort (fun x y => decide (Buffers.idxCmp x y ≤ 0)) l).Pairwise (· ≤ ·) := by
    refine (qs.sorted _ l ?_ ?_).imp ?_
    · intro a b _ _
      rw [hle, hle]
      simp
      omega
    · intro a b c _ _ _ h1 h2
      rw [hle] at *
      simp at *
      omega
    · intro a b h1
      rw [hle] at h1
      simpa using h1
  generalize qs.sort (fun x y => decide (Buffers.idxCmp x y ≤ 0)) l = srt at *
  have hlen : l.length = f.edge.length := by rw [← hl]; simp
  have hne : srt ≠ [] := by
    intro h0
    rw [h0] at hperm
    have := hperm.length_eq
    rw [hlen] at this
    exact h.ne f hmem (List.length_eq_zero_iff.mp this.symm)
  have hlt : ∀ x ∈ srt, x < F.length := by
    intro x hx
    rw [hperm.mem_iff, ← hl] at hx
    obtain ⟨e, he, rfl⟩ := List.mem_map.mp hx
    exact across_lt h hf he
  rw [dups_ok srt hne hsort, ok_bind]
  have hd : srt.length - srt.toFinset.card = rep F i := by
    rw [hrep, hperm.length_eq, hlen, List.toFinset_eq_of_perm _ _ hperm]
  have hcount : ∀ s, (srt.map (sz F)).count s = (around F i).count s := by
    intro s
    rw [har]
    exact (hperm.map (sz F)).count_eq s
  rw [hd]
  have hz : ∀ k s, f.edge.length ≠ k → nb F k s i = 0 := by
    intro k s hk
    rw [nb, hsz, if_neg hk]
  by_cases h1 : f.edge.length = 1
  · rw [if_pos h1, sizesOf_ok F srt hlt, ok_bind, bump_ok, ok_bind]
    simp only [hcount]
    congr 2
    · unfold seven; simp [nb, hsz, h1]
    · unfold seven; simp [nb, hsz, h1]
    · unfold seven; simp [nb, hsz, h1]
  · rw [if_neg h1]
    by_cases h2 : f.edge.length = 2
    · rw [if_pos h2, sizesOf_ok F srt hlt, ok_bind, bump_ok, ok_bind]
      simp only [hcount]
      congr 2
      · unfold seven; simp [nb, hsz, h2]
      · unfold seven; simp [nb, hsz, h2]
      · unfold seven; simp [nb, hsz, h2]
    · rw [if_neg h2]
      by_cases h3 : f.edge.length = 3
      · rw [if_pos h3, sizesOf_ok F srt hlt, ok_bind, bump_ok, ok_bind]
        simp only [hcount]
        congr 2
        · unfold seven; simp [nb, hsz, h3]
        · unfold seven; simp [nb, hsz, h3]
        · unfold seven; simp [nb, hsz, h3]
      · rw [if_neg h3]
        congr 2
        · unfold seven; simp [nb, hsz, h1]
        · unfold seven; simp [nb, hsz, h2]
        · unfold seven; simp [nb, hsz, h3]

theorem allFaces_ok (qs : QSort) {m : Nat} {F : List Face} (h : Twice m F) : ∀ (l : List Face) (i d : Nat)
    (g1 g2 g3 : Nat → Nat), F.drop i = l →
    allFaces qs F ((List.range m).map (two F)) l i ⟨d, seven g1, seven g2, seven g3⟩ =
      .ok ⟨d + ((List.range' i l.length).map (rep F)).sum,
        seven (fun s => g1 s + ((List.range' i l.length).map (nb F 1 s)).sum),
        seven (fun s => g2 s + ((List.range' i l.length).map (nb F 2 s)).sum),
        seven (fun s => g3 s + ((List.range' i l.length).map (nb F 3 s)).sum)⟩
  | [], i, d, g1, g2, g3, _ => by simp [allFaces]
  | f :: l, i, d, g1, g2, g3, hl => by
    have hf : F[i]? = some f := by
      have := congrArg (fun l => l[0]?) hl
      simpa using this
    have hl' : F.drop (i + 1) = l := by
      have := congrArg (List.drop 1) hl
      simpa [Nat.add_comm] using this
    rw [allFaces, oneFace_ok qs h hf, ok_bind, allFaces_ok qs h l (i + 1) _ _ _ _ hl']
    simp only [List.length_cons, List.range'_succ, List.map_cons, List.sum_cons, Nat.add_assoc]

/-! ### The rest -/

theorem compress_ok : ∀ (l : List Nat) (k : Nat) (run : Bool) (out : List Nat), k + l.length ≤ out.length →
    (run = true → k < out.length) → ∃ r, compress l k run out = .ok r
  | [], _, _, out, _, _ => ⟨out, rfl⟩
  | x :: l, k, run, out, h, hr => by
    simp only [List.length_cons] at h
    have hk : k < out.length := by omega
    unfold compress
    split
    · rw [wr_lt hk, ok_bind]
      exact compress_ok l (k + 1) false _ (by rw [List.length_set]; omega) (by simp)
    · cases run
      · simp only [Bool.false_eq_true, if_false]
        rw [ok_bind, wr_lt hk, ok_bind]
        exact compress_ok l k true _ (by rw [List.length_set]; omega) (by intro _; rw [List.length_set]; exact hk)
      · simp only [if_true]
        rw [rd_lt hk, ok_bind, wr_lt hk, ok_bind]
        exact compress_ok l k true _ (by rw [List.length_set]; omega) (by intro _; rw [List.length_set]; exact hk)

/-- Everything after the loop over the faces. -/
def finish (data : List Nat) (v : List Nat) (big : Bool) (a : Acc) : Res (List Char) := do
  let data := push data [a.dual]
  let data ← addV big data v
  let c ← combined a
  let c ← compress c 0 false (List.replicate 21 0)
  let data := push data c
  let data := data ++ List.replicate (24 - data.length) 0
  let s ← base64encode data
  .ok (s.take 31)

/-- The hash in terms of the numbers it is made from. -/
theorem regenHash_eq (qs : QSort) {nc m : Nat} {F : List Face} (h : Twice m F) (h0 : F ≠ []) (K : List Comp) :
    regenHash qs nc m F K = finish
      (push (push (push [nc % 256, m % 256, F.length % 256] (F.map (·.edge.length))) [K.length]) (K.map (·.edge.length)))
      (around F 0) ((F.drop 1).all (fun f => decide (f.edge.length < sz F 0)))
      ⟨((List.range F.length).map (rep F)).sum, seven (fun s => ((List.range F.length).map (nb F 1 s)).sum),
        seven (fun s => ((List.range F.length).map (nb F 2 s)).sum),
        seven (fun s => ((List.range F.length).map (nb F 3 s)).sum)⟩ := by
  have hpos := List.length_pos_iff.mpr h0
  have hf : F[0]? = some F[0] := List.getElem?_eq_getElem hpos
  obtain ⟨t, t1, t2⟩ := table_ok h
  have hsz : sz F 0 = F[0].edge.length := by rw [sz, hf]; rfl
  have har : around F 0 = (F[0].edge.map (across F 0)).map (sz F) := by rw [around, hf]; rfl
  unfold regenHash
  simp only
  rw [t1, ok_bind, t2, ok_bind, rd_eq_ok.mpr hf, ok_bind, adjacent_ok F 0 _ (h.lt _ (List.getElem_mem hpos)), ok_bind,
    sizesOf_ok F _ (by
      intro x hx
      obtain ⟨e, he, rfl⟩ := List.mem_map.mp hx
      exact across_lt h hf he), ok_bind]
  have h7 : List.replicate 7 0 = seven (fun _ => 0) := rfl
  rw [h7, allFaces_ok qs h F 0 0 _ _ _ (by simp), ok_bind, ← har, ← hsz]
  simp only [Nat.zero_add, ← List.range_eq_range']
  rfl

end Plc.HashGen
