import Verif.Model.Interlace
import Verif.Proofs.Linking
import Mathlib.Algebra.BigOperators.Group.Finset.Basic
import Mathlib.Algebra.BigOperators.Intervals
import Mathlib.Tactic.Ring
import Mathlib.Data.List.Perm.Basic
import Mathlib.Data.List.Count

namespace Plc.Interlace

open Plc.Cmp

/-! ### Inversions -/

/-- The number of pairs of positions, an earlier one holding `y` and a later one holding `x`. -/
def inv (y x : Nat) : List Nat → Nat
  | [] => 0
  | a :: l => (if a = y then l.count x else 0) + inv y x l

theorem inv_sorted {y x : Nat} (h : x < y) : ∀ {l : List Nat}, l.Pairwise (· ≤ ·) → inv y x l = 0
  | [], _ => rfl
  | a :: l, hl => by
    rw [List.pairwise_cons] at hl
    unfold inv
    rw [inv_sorted h hl.2, Nat.add_zero]
    split
    · rename_i ha
      rw [List.count_eq_zero]
      intro hx
      have := hl.1 x hx
      omega
    · rfl

theorem inv_filter {y x : Nat} (p : Nat → Bool) (hy : p y = true) (hx : p x = true) :
    ∀ l : List Nat, inv y x (l.filter p) = inv y x l
  | [] => rfl
  | a :: l => by
    rw [List.filter_cons]
    split
    · unfold inv
      rw [inv_filter p hy hx l, List.count_filter hx]
    · rename_i ha
      rw [inv_filter p hy hx l, inv, if_neg (by rintro rfl; exact ha hy), Nat.zero_add]

theorem inv_map {y x : Nat} (f : Nat → Nat) : ∀ (l : List Nat),
    (∀ z ∈ l, f z = f y → z = y) → (∀ z ∈ l, f z = f x → z = x) → inv (f y) (f x) (l.map f) = inv y x l
  | [], _, _ => rfl
  | a :: l, h1, h2 => by
    rw [List.map_cons]
    unfold inv
    rw [inv_map f l (fun z hz => h1 z (List.mem_cons_of_mem _ hz)) (fun z hz => h2 z (List.mem_cons_of_mem _ hz))]
    congr 1
    have hc : (l.map f).count (f x) = l.count x := by
      rw [List.count_eq_countP, List.count_eq_countP, List.countP_map]
      apply List.countP_congr
      intro z hz
      simp only [Function.comp, beq_iff_eq]
      exact ⟨h2 z (List.mem_cons_of_mem _ hz), fun h => by rw [h]⟩
    rw [hc]
    by_cases ha : a = y
    · rw [if_pos ha, if_pos (by rw [ha])]
    · rw [if_neg ha, if_neg (fun h => ha (h1 a (by simp) h))]

theorem countP_two {a b : Nat} (hab : a ≠ b) : ∀ l : List Nat,
    (l.filter (fun z => decide (z = a ∨ z = b))).length = l.count a + l.count b
  | [] => rfl
  | z :: l => by
    rw [List.filter_cons, List.count_cons, List.count_cons]
    have ih := countP_two hab l
    by_cases h1 : z = a
    · rw [if_pos (by simp [h1]), if_pos (by simp [h1]), if_neg (by simp [h1, hab]), List.length_cons, ih]
      omega
    · by_cases h2 : z = b
      · rw [if_pos (by simp [h2]), if_neg (by simpa using h1), if_pos (by simp [h2]), List.length_cons, ih]
        omega
      · rw [if_neg (by simp [h1, h2]), if_neg (by simpa using h1), if_neg (by simpa using h2), ih,
          Nat.add_zero, Nat.add_zero]

/-- The swap count is odd exactly for interlaced pairs. -/
theorem inv_odd {a b : Nat} (hab : a ≠ b) {g : List Nat} (ha : g.count a = 2) (hb : g.count b = 2) :
    inv b a g % 2 ≠ 0 ↔ ([a, b, a, b].Sublist g ∨ [b, a, b, a].Sublist g) := by
  let p : Nat → Bool := fun z => decide (z = a ∨ z = b)
  have hpa : p a = true := by simp [p]
  have hpb : p b = true := by simp [p]
  have key : ∀ l : List Nat, (∀ z ∈ l, p z = true) → (l.Sublist g ↔ l.Sublist (g.filter p)) := by
    intro l hl
    constructor
    · intro h
      have := h.filter p
      rwa [List.filter_eq_self.mpr hl] at this
    · intro h
      exact h.trans List.filter_sublist
  rw [key _ (by simp [p]), key _ (by simp [p]), ← inv_filter p hpb hpa g]
  have hlen : (g.filter p).length = 4 := by
    have := countP_two hab g
    rw [ha, hb] at this
    exact this
  have ha' : (g.filter p).count a = 2 := by rw [List.count_filter hpa, ha]
  have hmem : ∀ z ∈ g.filter p, z = a ∨ z = b := by
    intro z hz
    simpa [p] using (List.mem_filter.mp hz).2
  generalize g.filter p = F at *
  have s4 : ∀ l : List Nat, l.length = 4 → (l.Sublist F ↔ l = F) := by
    intro l hl
    exact ⟨fun h => h.eq_of_length (by rw [hl, hlen]), fun h => by rw [h]⟩
  rw [s4 _ rfl, s4 _ rfl]
  match F, hlen with
  | [w, x, y, z], _ =>
    have h1 := hmem w (by simp)
    have h2 := hmem x (by simp)
    have h3 := hmem y (by simp)
    have h4 := hmem z (by simp)
    have hba : b ≠ a := Ne.symm hab
    rcases h1 with rfl | rfl <;> rcases h2 with h2 | h2 <;> rcases h3 with h3 | h3 <;>
      rcases h4 with h4 | h4 <;> subst_vars <;> simp_all [inv]

/-! ### The bubble sort -/

/-- One pass, on the absolute values. -/
def bub : List Nat → List Nat
  | a :: b :: l => if a > b then b :: bub (a :: l) else a :: bub (b :: l)
  | l => l

theorem bub_perm : ∀ (l : List Nat) (a : Nat), (bub (a :: l)).Perm (a :: l)
  | [], _ => by simp [bub]
  | b :: l, a => by
    unfold bub
    split
    · exact ((bub_perm l a).cons b).trans (List.Perm.swap _ _ _)
    · exact (bub_perm l b).cons a

/-- A sorted list stays as it is. -/
theorem bub_sorted : ∀ (l : List Nat) (a : Nat), (a :: l).Pairwise (· ≤ ·) → bub (a :: l) = a :: l
  | [], _, _ => by simp [bub]
  | b :: l, a, h => by
    rw [List.pairwise_cons] at h
    unfold bub
    rw [if_neg (by have := h.1 b (by simp); omega), bub_sorted l b h.2]

/-- A pass takes the greatest element to the end and leaves a settled part alone. -/
theorem bub_settle : ∀ (u : List Nat) (a : Nat) (v : List Nat), v.Pairwise (· ≤ ·) →
    (∀ x ∈ a :: u, ∀ y ∈ v, x ≤ y) →
    ∃ (u' : List Nat) (m : Nat), bub (a :: (u ++ v)) = u' ++ m :: v ∧ u'.length = u.length ∧ (∀ x ∈ u', x ≤ m) ∧
      (∀ x ∈ u', x ∈ a :: u) ∧ m ∈ a :: u ∧ a ≤ m
  | [], a, v, hv, h => by
    refine ⟨[], a, ?_, rfl, by simp, by simp, by simp, Nat.le_refl _⟩
    exact bub_sorted v a (List.pairwise_cons.mpr ⟨fun y hy => h a (by simp) y hy, hv⟩)
  | b :: u, a, v, hv, h => by
    simp only [List.cons_append]
    unfold bub
    split
    · rename_i hab
      obtain ⟨u', m, h1, h2, h3, h4, h5, h6⟩ := bub_settle u a v hv (fun x hx y hy => h x (by
        rw [List.mem_cons] at hx
        rcases hx with rfl | hx <;> simp [*]) y hy)
      refine ⟨b :: u', m, by rw [h1]; rfl, by simp [h2], ?_, ?_, ?_, h6⟩
      · intro x hx
        rcases List.mem_cons.mp hx with rfl | hx
        · omega
        · exact h3 x hx
      · intro x hx
        rcases List.mem_cons.mp hx with rfl | hx
        · simp
        · have := h4 x hx
          rw [List.mem_cons] at this ⊢
          rcases this with h | h <;> simp [h]
      · rw [List.mem_cons] at h5 ⊢
        rcases h5 with h | h <;> simp [h]
    · rename_i hab
      obtain ⟨u', m, h1, h2, h3, h4, h5, h6⟩ := bub_settle u b v hv (fun x hx y hy => h x
        (List.mem_cons_of_mem _ hx) y hy)
      refine ⟨a :: u', m, by rw [h1]; rfl, by simp [h2], ?_, ?_, List.mem_cons_of_mem _ h5, by omega⟩
      · intro x hx
        rcases List.mem_cons.mp hx with rfl | hx
        · omega
        · exact h3 x hx
      · intro x hx
        rcases List.mem_cons.mp hx with rfl | hx
        · simp
        · exact List.mem_cons_of_mem _ (h4 x hx)

/-- The table of swap counts. -/
def cell (s : List (List Nat)) (y x : Nat) : Nat := ((s[y]?.getD [])[x]?).getD 0

def rowLen (i : Nat) : Nat := if i < 2 then 0 else i

def Shape (cp : Nat) (s : List (List Nat)) : Prop :=
  s.length = cp + 1 ∧ ∀ i r, s[i]? = some r → r.length = rowLen i

theorem bump_ok {cp : Nat} {s : List (List Nat)} (hs : Shape cp s) {y x : Nat} (hxy : x < y) (hx : 1 ≤ x)
    (hy : y ≤ cp) : ∃ s', bump s y x = .ok s' ∧ Shape cp s' ∧
      ∀ y' x', cell s' y' x' = cell s y' x' + (if y' = y ∧ x' = x then 1 else 0) := by
  have hys : y < s.length := by have := hs.1; omega
  have hr := hs.2 y s[y] (List.getElem?_eq_getElem hys)
  have hxr : x < s[y].length := by rw [hr]; unfold rowLen; rw [if_neg (by omega)]; exact hxy
  refine ⟨s.set y (s[y].set x (s[y][x] + 1)), ?_, ⟨?_, ?_⟩, ?_⟩
  · unfold bump
    rw [rd_lt hys, ok_bind, rd_lt hxr, ok_bind, wr_lt hxr, ok_bind, wr_lt hys]
  · rw [List.length_set]; exact hs.1
  · intro i r h
    rw [List.getElem?_set] at h
    split at h
    · rename_i hi
      subst hi
      cases h
      rw [List.length_set, hr]
    · exact hs.2 i r h
  · intro y' x'
    unfold cell
    rw [List.getElem?_set]
    by_cases h1 : y = y'
    · subst h1
      rw [if_pos rfl, if_pos hys, List.getElem?_eq_getElem hys]
      simp only [Option.getD_some]
      rw [List.getElem?_set]
      by_cases h2 : x = x'
      · subst h2
        rw [if_pos rfl, if_pos hxr, List.getElem?_eq_getElem hxr]
        simp
      · rw [if_neg h2, if_neg (by omega), Nat.add_zero]
    · rw [if_neg h1, if_neg (by omega), Nat.add_zero]

/-- The absolute values. -/
def ab (l : List Int) : List Nat := l.map Int.natAbs

theorem inv_swap {y x a b : Nat} (hab : b < a) (hxy : x < y) (l : List Nat) :
    inv y x (b :: a :: l) + (if y = a ∧ x = b then 1 else 0) = inv y x (a :: b :: l) := by
  simp only [inv, List.count_cons, beq_iff_eq]
  split_ifs <;> omega

theorem inv_cons_perm {y x b : Nat} {l l' : List Nat} (h : l'.Perm l) :
    inv y x (b :: l') + inv y x l = inv y x (b :: l) + inv y x l' := by
  simp only [inv, h.count_eq]
  omega

theorem pass_ok {cp : Nat} : ∀ (l : List Int) (a : Int) (s : List (List Nat)), Shape cp s →
    (∀ x ∈ a :: l, 1 ≤ x.natAbs ∧ x.natAbs ≤ cp) →
    ∃ (r : List Int) (s' : List (List Nat)) (m : Bool), pass (a :: l) s = .ok (r, s', m) ∧ ab r = bub (ab (a :: l)) ∧ Shape cp s' ∧
      (∀ y x, x < y → cell s' y x + inv y x (ab r) = cell s y x + inv y x (ab (a :: l))) ∧
      (m = false ↔ (ab (a :: l)).Pairwise (· ≤ ·))
  | [], a, s, hs, _ => ⟨[a], s, false, by simp [pass], by simp [ab, bub], hs, fun _ _ _ => rfl, by simp [ab]⟩
  | b :: l, a, s, hs, h => by
    unfold pass
    by_cases hab : a.natAbs > b.natAbs
    · rw [if_pos hab]
      obtain ⟨s1, e1, hs1, hc1⟩ := bump_ok hs hab (h b (by simp)).1 (h a (by simp)).2
      obtain ⟨r, s2, m, e2, hr, hs2, hc2, _⟩ := pass_ok l a s1 hs1 (fun x hx => h x (by
        rw [List.mem_cons] at hx
        rcases hx with rfl | hx <;> simp [*]))
      refine ⟨b :: r, s2, true, ?_, ?_, hs2, ?_, ?_⟩
      · rw [e1, ok_bind, e2, ok_bind]
      · simp only [ab, List.map_cons] at hr ⊢
        rw [hr, bub, if_pos hab]
      · intro y x hxy
        have i1 := hc2 y x hxy
        have i2 := hc1 y x
        have i3 := inv_swap hab hxy (ab l)
        have hp : (ab r).Perm (ab (a :: l)) := by
          rw [hr]; exact bub_perm _ _
        have i4 := inv_cons_perm (y := y) (x := x) (b := b.natAbs) hp
        simp only [ab, List.map_cons] at *
        omega
      · simp only [ab, List.map_cons, List.pairwise_cons]
        simp
        intro h1
        omega
    · rw [if_neg hab]
      obtain ⟨r, s2, m, e2, hr, hs2, hc2, hm⟩ := pass_ok l b s hs (fun x hx => h x
        (List.mem_cons_of_mem _ hx))
      refine ⟨a :: r, s2, m, ?_, ?_, hs2, ?_, ?_⟩
      · rw [e2, ok_bind]
      · simp only [ab, List.map_cons] at hr ⊢
        rw [hr, bub, if_neg hab]
      · intro y x hxy
        have i1 := hc2 y x hxy
        have hp : (ab r).Perm (ab (b :: l)) := by
          rw [hr]; exact bub_perm _ _
        have i4 := inv_cons_perm (y := y) (x := x) (b := a.natAbs) hp
        simp only [ab, List.map_cons] at *
        omega
      · rw [hm]
        simp only [ab, List.map_cons]
        constructor
        · intro h1
          refine List.pairwise_cons.mpr ⟨?_, h1⟩
          intro y hy
          rcases List.mem_cons.mp hy with rfl | hy
          · omega
          · have := (List.pairwise_cons.mp h1).1 y hy
            omega
        · exact fun h1 => (List.pairwise_cons.mp h1).2

/-- The sort ends within the limit and the table counts inversions. -/
theorem sortLoop_ok {cp : Nat} : ∀ (f : Nat) (l : List Int) (s : List (List Nat)) (u v : List Nat), Shape cp s →
    (∀ x ∈ l, 1 ≤ x.natAbs ∧ x.natAbs ≤ cp) → l ≠ [] → ab l = u ++ v → u.length ≤ f → v.Pairwise (· ≤ ·) →
    (∀ x ∈ u, ∀ y ∈ v, x ≤ y) →
    ∃ s', sortLoop (f + 1) l s = .ok s' ∧ Shape cp s' ∧ ∀ y x, x < y → cell s' y x = cell s y x + inv y x (ab l) := by
  intro f
  induction f with
  | zero =>
    intro l s u v hs hl hne huv hu hv huv'
    match l, hne with
    | a :: l, _ =>
    obtain ⟨r, s', m, e, hr, hs', hc, hm⟩ := pass_ok l a s hs hl
    have hu0 : u = [] := List.eq_nil_of_length_eq_zero (by omega)
    have hsrt : (ab (a :: l)).Pairwise (· ≤ ·) := by rw [huv, hu0]; exact hv
    refine ⟨s', ?_, hs', ?_⟩
    · unfold sortLoop
      rw [e, ok_bind]
      simp only [hm.mpr hsrt]
      rfl
    · intro y x hxy
      have h1 := hc y x hxy
      rw [inv_sorted hxy hsrt] at h1 ⊢
      have h2 : ab r = ab (a :: l) := by
        rw [hr]
        simp only [ab, List.map_cons] at hsrt ⊢
        exact bub_sorted _ _ hsrt
      rw [h2, inv_sorted hxy hsrt] at h1
      exact h1
  | succ f ih =>
    intro l s u v hs hl hne huv hu hv huv'
    match l, hne with
    | a :: l, _ =>
    obtain ⟨r, s', m, e, hr, hs', hc, hm⟩ := pass_ok l a s hs hl
    have hp : (ab r).Perm (ab (a :: l)) := by rw [hr]; exact bub_perm _ _
    by_cases hsrt : (ab (a :: l)).Pairwise (· ≤ ·)
    · refine ⟨s', ?_, hs', ?_⟩
      · unfold sortLoop
        rw [e, ok_bind]
        simp only [hm.mpr hsrt]
        rfl
      · intro y x hxy
        have h1 := hc y x hxy
        rw [inv_sorted hxy hsrt] at h1 ⊢
        have h2 : ab r = ab (a :: l) := by
          rw [hr]
          simp only [ab, List.map_cons] at hsrt ⊢
          exact bub_sorted _ _ hsrt
        rw [h2, inv_sorted hxy hsrt] at h1
        exact h1
    · have hmt : m = true := by
        cases m with
        | true => rfl
        | false => exact absurd (hm.mp rfl) hsrt
      have hrl : ∀ x ∈ r, 1 ≤ x.natAbs ∧ x.natAbs ≤ cp := by
        intro x hx
        have : x.natAbs ∈ ab (a :: l) := hp.mem_iff.mp (List.mem_map_of_mem hx)
        obtain ⟨z, hz, hzx⟩ := List.mem_map.mp this
        rw [← hzx]
        exact hl z hz
      have hrne : r ≠ [] := by
        rintro rfl
        have := hp.length_eq
        simp [ab] at this
      have hset : ∃ u' v' : List Nat, ab r = u' ++ v' ∧ u'.length ≤ f ∧ v'.Pairwise (· ≤ ·) ∧ (∀ x ∈ u', ∀ y ∈ v', x ≤ y) := by
        match u, huv, hu, huv' with
        | [], huv, _, _ => exact absurd (by rw [huv]; exact hv) hsrt
        | c :: u, huv, hu, huv' =>
          obtain ⟨u', mm, h1, h2, h3, h4, h5, h6⟩ := bub_settle u c v hv huv'
          refine ⟨u', mm :: v, ?_, ?_, ?_, ?_⟩
          · rw [hr, huv, List.cons_append, h1]
          · rw [h2]; simpa using hu
          · exact List.pairwise_cons.mpr ⟨fun y hy => huv' mm h5 y hy, hv⟩
          · intro x hx y hy
            rcases List.mem_cons.mp hy with rfl | hy
            · exact h3 x hx
            · exact huv' x (h4 x hx) y hy
      obtain ⟨u', v', k1, k2, k3, k4⟩ := hset
      obtain ⟨s2, e2, hs2, hc2⟩ := ih r s' u' v' hs' hrl hrne k1 k2 k3 k4
      refine ⟨s2, ?_, hs2, ?_⟩
      · unfold sortLoop
        rw [e, ok_bind]
        simp only [hmt, if_true]
        exact e2
      · intro y x hxy
        rw [hc2 y x hxy, hc y x hxy]

/-! ### The code with first visits marked -/

theorem markFirst_ok : ∀ (l : List Nat) (ns : List Nat), (∀ g ∈ l, 1 ≤ g ∧ g < ns.length) →
    ∃ r : List Int, markFirst ns l = .ok r ∧ ab r = l ∧
      ∀ x : Nat, 1 ≤ x → ((r.filter (fun z => decide (z > 0))).map Int.natAbs).count x =
        l.count x - (if ns[x]?.getD 0 = 0 then 1 else 0)
  | [], ns, _ => ⟨[], rfl, rfl, fun x _ => by simp⟩
  | g :: l, ns, h => by
    have hg := h g (by simp)
    obtain ⟨r, h1, h2, h3⟩ := markFirst_ok l (ns.set g (ns[g] + 1)) (fun g' hg' => by
      rw [List.length_set]; exact h g' (List.mem_cons_of_mem _ hg'))
    refine ⟨_, by unfold markFirst; rw [rd_lt hg.2, ok_bind, wr_lt hg.2, ok_bind, h1, ok_bind], ?_, ?_⟩
    · simp only [ab, List.map_cons] at h2 ⊢
      rw [h2]
      split <;> simp
    · intro x hx
      have h3 := h3 x hx
      rw [List.getElem?_set] at h3
      by_cases hz : ns[g] = 0
      · have e : (if ns[g] + 1 = 1 then -(g : Int) else (g : Int)) = -(g : Int) := if_pos (by omega)
        rw [e, List.filter_cons_of_neg (by simp), h3, List.count_cons]
        by_cases hxg : g = x
        · subst hxg
          rw [if_pos rfl, if_pos hg.2, if_neg (by simp), List.getElem?_eq_getElem hg.2]
          simp [hz]
        · rw [if_neg hxg]
          simp [hxg]
      · have e : (if ns[g] + 1 = 1 then -(g : Int) else (g : Int)) = (g : Int) := if_neg (by omega)
        rw [e, List.filter_cons_of_pos (by simp; omega), List.map_cons, List.count_cons, h3, Int.natAbs_natCast,
          List.count_cons]
        by_cases hxg : g = x
        · subst hxg
          rw [if_pos rfl, if_pos hg.2, if_neg (by simp), List.getElem?_eq_getElem hg.2]
          simp [hz]
        · rw [if_neg hxg]
          simp [hxg]

theorem gaussCode_ok (edge : List Edge) : ∀ l : List Nat, (∀ e ∈ l, e < edge.length) →
    gaussCode edge l = .ok (l.map (fun e => Strands.hc edge e + 1))
  | [], _ => rfl
  | e :: l, h => by
    have he := h e (by simp)
    unfold gaussCode
    rw [rd_lt he, ok_bind, gaussCode_ok edge l (fun x hx => h x (List.mem_cons_of_mem _ hx)), ok_bind]
    simp only [List.map_cons, Strands.hc, getElem!_pos edge e he]

/-! ### New labels -/

theorem newLabels_ok : ∀ (l : List Nat) (i : Nat) (nl : List Nat), l.Nodup → (∀ c ∈ l, c < nl.length) →
    ∃ nl', newLabels l i nl = .ok nl' ∧ nl'.length = nl.length ∧
      ∀ c, nl'[c]?.getD 0 = if c ∈ l then i + l.idxOf c + 1 else nl[c]?.getD 0
  | [], i, nl, _, _ => ⟨nl, rfl, rfl, fun c => by simp⟩
  | a :: l, i, nl, hn, h => by
    rw [List.nodup_cons] at hn
    have ha := h a (by simp)
    obtain ⟨nl', h1, h2, h3⟩ := newLabels_ok l (i + 1) (nl.set a (i + 1)) hn.2 (fun c hc => by
      rw [List.length_set]; exact h c (List.mem_cons_of_mem _ hc))
    refine ⟨nl', by unfold newLabels; rw [wr_lt ha, ok_bind, h1], by rw [h2, List.length_set], ?_⟩
    intro c
    rw [h3 c]
    by_cases hca : c = a
    · subst hca
      rw [if_neg hn.1, if_pos (by simp), List.getElem?_set, if_pos rfl, if_pos ha]
      simp
    · have hac : a ≠ c := Ne.symm hca
      by_cases hc : c ∈ l
      · rw [if_pos hc, if_pos (by simp [hc]), List.idxOf_cons_ne _ hac]
        omega
      · rw [if_neg hc, if_neg (by simp [hc, hca]), List.getElem?_set, if_neg hac]

theorem augment_ok (nl : List Nat) : ∀ l : List Int, (∀ g ∈ l, g.natAbs < nl.length) →
    ∃ r, augment nl l = .ok r ∧
      ab r = ((ab l).filter (fun g => decide (nl[g]?.getD 0 > 0))).map (fun g => nl[g]?.getD 0)
  | [], _ => ⟨[], rfl, rfl⟩
  | g :: l, h => by
    have hg := h g (by simp)
    obtain ⟨r, h1, h2⟩ := augment_ok nl l (fun x hx => h x (List.mem_cons_of_mem _ hx))
    refine ⟨_, by unfold augment; rw [rd_lt hg, ok_bind, h1, ok_bind], ?_⟩
    simp only [ab, List.map_cons] at h2 ⊢
    rw [List.filter_cons, List.getElem?_eq_getElem hg]
    simp only [Option.getD_some]
    by_cases hv : nl[g.natAbs] > 0
    · rw [if_pos hv, if_pos (c := decide (nl[g.natAbs] > 0) = true) (by simpa using hv), List.map_cons,
        List.map_cons, h2, List.getElem?_eq_getElem hg]
      congr 1
      split <;> simp
    · rw [if_neg hv, if_neg (c := decide (nl[g.natAbs] > 0) = true) (by simpa using hv), h2]

/-! ### Sums -/

theorem sumRes_ok (f : Nat → Res Int) (F : Nat → Int) : ∀ (l : List Nat) (acc : Int), (∀ i ∈ l, f i = .ok (F i)) →
    sumRes f l acc = .ok (acc + (l.map F).sum)
  | [], acc, _ => by simp [sumRes]
  | i :: l, acc, h => by
    unfold sumRes
    rw [h i (by simp), ok_bind, sumRes_ok f F l _ (fun x hx => h x (List.mem_cons_of_mem _ hx))]
    simp [Int.add_assoc]

open Finset in
theorem range'_sum (F : Nat → Int) : ∀ (n s : Nat), ((List.range' s n).map F).sum = ∑ i ∈ range n, F (s + i)
  | 0, s => by simp
  | n + 1, s => by
    rw [List.range'_succ, List.map_cons, List.sum_cons, range'_sum F n (s + 1), sum_range_succ']
    simp only [Nat.add_zero]
    rw [Int.add_comm]
    congr 1
    apply sum_congr rfl
    intro i _
    congr 1
    omega

open Finset in
/-- Pairs of labels are pairs of values of an increasing list. -/
theorem pair_sum {cp n : Nat} (t : Nat → Nat) (hinc : ∀ i j, i < j → j < cp → t i < t j) (hn : ∀ i < cp, t i < n)
    (f : Nat → Nat → Int) (h1 : ∀ b a, (∀ i < cp, t i ≠ b) → f b a = 0) (h2 : ∀ b a, (∀ i < cp, t i ≠ a) → f b a = 0) :
    ∑ i ∈ range cp, ∑ j ∈ range i, f (t i) (t j) = ∑ b ∈ range n, ∑ a ∈ range b, f b a := by
  have hinj : ∀ i < cp, ∀ j < cp, t i = t j → i = j := by
    intro i hi j hj h
    rcases Nat.lt_trichotomy i j with hl | hl | hl
    · have := hinc i j hl hj; omega
    · exact hl
    · have := hinc j i hl hi; omega
  have inner : ∀ i < cp, ∑ j ∈ range i, f (t i) (t j) = ∑ a ∈ range (t i), f (t i) a := by
    intro i hi
    rw [← sum_image (s := range i) (g := t) (f := fun a => f (t i) a)]
    · apply sum_subset
      · intro a ha
        obtain ⟨j, hj, rfl⟩ := mem_image.mp ha
        exact mem_range.mpr (hinc j i (mem_range.mp hj) hi)
      · intro a ha hna
        apply h2
        intro j hj hja
        apply hna
        refine mem_image.mpr ⟨j, mem_range.mpr ?_, hja⟩
        by_contra hij
        have ha := mem_range.mp ha
        rcases Nat.lt_or_eq_of_le (Nat.le_of_not_lt hij) with hl | hl
        · have := hinc i j hl hj; omega
        · subst hl; omega
    · intro j hj k hk h
      simp only [coe_range, Set.mem_Iio] at hj hk
      exact hinj j (by omega) k (by omega) h
  rw [sum_congr rfl (fun i hi => inner i (mem_range.mp hi))]
  rw [← sum_image (s := range cp) (g := t) (f := fun b => ∑ a ∈ range b, f b a)]
  · apply sum_subset
    · intro b hb
      obtain ⟨i, hi, rfl⟩ := mem_image.mp hb
      exact mem_range.mpr (hn i (mem_range.mp hi))
    · intro b _ hnb
      apply sum_eq_zero
      intro a _
      apply h1
      intro i hi hib
      exact hnb (mem_image.mpr ⟨i, mem_range.mpr hi, hib⟩)
  · intro j hj k hk h
    simp only [coe_range, Set.mem_Iio] at hj hk
    exact hinj j hj k hk h

end Plc.Interlace
