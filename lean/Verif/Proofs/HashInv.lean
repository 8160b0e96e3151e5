import Verif.Proofs.HashGen
import Verif.Proofs.Renamed
import Mathlib.Data.List.Rotate

namespace Plc.HashGen

open Plc.Cmp Plc.Hash

/-! ### Small facts about lists -/

theorem count_map_on {f : Nat → Nat} {a : Nat} : ∀ (l : List Nat), (∀ x ∈ l, f x = f a → x = a) →
    (l.map f).count (f a) = l.count a
  | [], _ => rfl
  | x :: l, h => by
    rw [List.map_cons, List.count_cons, List.count_cons, count_map_on l (fun y hy => h y (by simp [hy]))]
    by_cases hx : x = a
    · subst hx; simp
    · have h1 : f x ≠ f a := fun h2 => hx (h x (by simp) h2)
      simp [hx, h1]

theorem perm_two {a b c : Nat} {l : List Nat} (h : l.Perm [a, b]) (h' : l.Perm [a, c]) : b = c := by
  have := (List.perm_cons a).mp (h.symm.trans h')
  simpa using this

theorem range_perm {n : Nat} {φ : Nat → Nat} (hl : ∀ i, i < n → φ i < n)
    (hi : ∀ i j, i < n → j < n → φ i = φ j → i = j) : ((List.range n).map φ).Perm (List.range n) := by
  have hn : ((List.range n).map φ).Nodup := by
    refine List.Nodup.map_on ?_ List.nodup_range
    intro x hx y hy h
    exact hi x y (by simpa using hx) (by simpa using hy) h
  refine (List.subperm_of_subset hn ?_).perm_of_length_le (by simp)
  intro x hx
  obtain ⟨i, h1, rfl⟩ := List.mem_map.mp hx
  simpa using hl i (by simpa using h1)

theorem sum_reindex {n : Nat} {φ : Nat → Nat} (hl : ∀ i, i < n → φ i < n)
    (hi : ∀ i j, i < n → j < n → φ i = φ j → i = j) {a b : Nat → Nat} (h : ∀ i, i < n → b (φ i) = a i) :
    ((List.range n).map b).sum = ((List.range n).map a).sum := by
  rw [← ((range_perm hl hi).map b).sum_eq, List.map_map]
  congr 1
  apply List.map_congr_left
  intro i hi'
  exact h i (by simpa using hi')

theorem sorted_reindex {a b : List Nat} {κ : Nat → Nat} (hlen : b.length = a.length)
    (hl : ∀ i, i < a.length → κ i < a.length) (hi : ∀ i j, i < a.length → j < a.length → κ i = κ j → i = j)
    (h : ∀ i x, a[i]? = some x → b[κ i]? = some x) (ha : a.Pairwise (fun x y => y ≤ x))
    (hb : b.Pairwise (fun x y => y ≤ x)) : a = b := by
  have ea : a = (List.range a.length).map (fun i => a[i]!) := by
    apply List.ext_getElem (by simp)
    intro i h1 h2
    simp [h1]
  have eb : b = (List.range a.length).map (fun i => b[i]!) := by
    apply List.ext_getElem (by simp [hlen])
    intro i h1 h2
    simp [h1]
  have hp : a.Perm b := by
    rw [eb]
    refine List.Perm.trans ?_ ((range_perm hl hi).map (fun i => b[i]!))
    rw [List.map_map]
    conv_lhs => rw [ea]
    refine List.Perm.of_eq (List.map_congr_left ?_)
    intro i hi'
    have hi'' : i < a.length := by simpa using hi'
    have h1 := h i _ (List.getElem?_eq_getElem hi'')
    obtain ⟨h2, h3⟩ := List.getElem?_eq_some_iff.mp h1
    simp [hi'', h2, h3]
  exact hp.eq_of_pairwise (fun x y _ _ h1 h2 => by omega) ha hb

/-! ### Corresponding faces -/

variable {F G : List Face} {m : Nat} {τ φ : Nat → Nat} {o : Or}

theorem carried_perm {l l' : List Nat} (h : ListCarried τ o l l') : l'.Perm (l.map τ) := by
  unfold ListCarried at h
  have := h.perm
  split at this
  · exact this.trans (List.reverse_perm _)
  · exact this

theorem sz_same (h : SameFaces F G m τ φ o) {i : Nat} (hi : i < F.length) : sz G (φ i) = sz F i := by
  obtain ⟨g, g1, g2⟩ := h.carried i _ (List.getElem?_eq_getElem hi)
  rw [sz, sz, g1, List.getElem?_eq_getElem hi]
  have := (carried_perm g2).length_eq
  simpa using this

theorem count_same (hF : Twice m F) (h : SameFaces F G m τ φ o) {i : Nat} {f g : Face} (hf : F[i]? = some f)
    (hg : G[φ i]? = some g) {e : Nat} (he : e < m) : g.edge.count (τ e) = f.edge.count e := by
  obtain ⟨g', g1, g2⟩ := h.carried i f hf
  rw [hg] at g1
  cases g1
  rw [(carried_perm g2).count_eq, count_map_on]
  intro x hx hxe
  exact h.tinj x e (hF.lt f (List.mem_of_getElem? hf) x hx) he hxe

theorem occ_same (hF : Twice m F) (h : SameFaces F G m τ φ o) {e : Nat} (he : e < m) :
    (occ G 0 (τ e)).Perm ((occ F 0 e).map φ) := by
  rw [List.perm_iff_count]
  intro k
  have hmem : ∀ x ∈ occ F 0 e, x < F.length := by
    intro x hx
    obtain ⟨f, hf, -⟩ := mem_occ.mp hx
    exact (List.getElem?_eq_some_iff.mp hf).1
  by_cases hk : k < F.length
  · obtain ⟨i, hi, hik⟩ := surj_of_inj h.plt h.pinj hk
    subst hik
    rw [count_map_on _ (fun x hx hxi => h.pinj x i (hmem x hx) hi hxi), count_occ0, count_occ0]
    obtain ⟨g, g1, -⟩ := h.carried i _ (List.getElem?_eq_getElem hi)
    rw [g1, List.getElem?_eq_getElem hi]
    exact count_same hF h (List.getElem?_eq_getElem hi) g1 he
  · rw [List.count_eq_zero.mpr, List.count_eq_zero.mpr]
    · intro hx
      obtain ⟨x, x1, x2⟩ := List.mem_map.mp hx
      have := h.plt x (hmem x x1)
      omega
    · intro hx
      obtain ⟨f, hf, -⟩ := mem_occ.mp hx
      have := (List.getElem?_eq_some_iff.mp hf).1
      rw [h.len] at this
      exact hk this

theorem across_same (hF : Twice m F) (hG : Twice m G) (h : SameFaces F G m τ φ o) {i : Nat} {f : Face}
    (hf : F[i]? = some f) {e : Nat} (he : e ∈ f.edge) : across G (φ i) (τ e) = φ (across F i e) := by
  have hlt := hF.lt f (List.mem_of_getElem? hf) e he
  obtain ⟨g, g1, g2⟩ := h.carried i f hf
  have hg : τ e ∈ g.edge := by
    rw [(carried_perm g2).mem_iff]
    exact List.mem_map_of_mem he
  refine perm_two (across_perm hG g1 hg) ?_
  have := (across_perm hF hf he).map φ
  exact (occ_same hF h hlt).trans this

theorem nbrs_same (hF : Twice m F) (hG : Twice m G) (h : SameFaces F G m τ φ o) {i : Nat} {f g : Face}
    (hf : F[i]? = some f) (hg : G[φ i]? = some g) :
    ListCarried φ o (f.edge.map (across F i)) (g.edge.map (across G (φ i))) := by
  obtain ⟨g', g1, g2⟩ := h.carried i f hf
  rw [hg] at g1
  cases g1
  have e1 : (f.edge.map τ).map (across G (φ i)) = (f.edge.map (across F i)).map φ := by
    rw [List.map_map, List.map_map]
    apply List.map_congr_left
    intro e he
    exact across_same hF hG h hf he
  unfold ListCarried at g2 ⊢
  have := g2.map (across G (φ i))
  split at this
  · rename_i ho
    rw [if_pos ho, ← e1, ← List.map_reverse]
    exact this
  · rename_i ho
    rw [if_neg ho, ← e1]
    exact this

theorem nbr_lt (hF : Twice m F) {i : Nat} {f : Face} (hf : F[i]? = some f) :
    ∀ x ∈ f.edge.map (across F i), x < F.length := by
  intro x hx
  obtain ⟨e, he, rfl⟩ := List.mem_map.mp hx
  exact across_lt hF hf he

theorem around_same (hF : Twice m F) (hG : Twice m G) (h : SameFaces F G m τ φ o) {i : Nat} (hi : i < F.length) :
    SameNecklace (around G (φ i)) (around F i) := by
  have hf := List.getElem?_eq_getElem hi
  obtain ⟨g, g1, -⟩ := h.carried i _ hf
  have h1 := nbrs_same hF hG h hf g1
  rw [around, around, g1, hf]
  simp only [Option.map_some, Option.getD_some]
  have e1 : ((F[i].edge.map (across F i)).map φ).map (sz G) = (F[i].edge.map (across F i)).map (sz F) := by
    rw [List.map_map]
    apply List.map_congr_left
    intro x hx
    exact sz_same h (nbr_lt hF hf x hx)
  unfold ListCarried at h1
  have h2 := h1.map (sz G)
  split at h2
  · right
    rw [← e1, ← List.map_reverse]
    exact h2
  · left
    rw [← e1]
    exact h2

theorem nb_same (hF : Twice m F) (hG : Twice m G) (h : SameFaces F G m τ φ o) (k s : Nat) {i : Nat} (hi : i < F.length) :
    nb G k s (φ i) = nb F k s i := by
  rw [nb, nb, sz_same h hi]
  congr 1
  rcases around_same hF hG h hi with h1 | h1
  · exact h1.perm.count_eq s
  · rw [h1.perm.count_eq s, List.count_reverse]

theorem rep_same (hF : Twice m F) (hG : Twice m G) (h : SameFaces F G m τ φ o) {i : Nat} (hi : i < F.length) :
    rep G (φ i) = rep F i := by
  have hf := List.getElem?_eq_getElem hi
  obtain ⟨g, g1, g2⟩ := h.carried i _ hf
  have h1 := carried_perm (nbrs_same hF hG h hf g1)
  rw [rep, rep, g1, hf]
  simp only [Option.map_some, Option.getD_some]
  have hl := (carried_perm g2).length_eq
  rw [List.length_map] at hl
  rw [hl, List.toFinset_eq_of_perm _ _ h1]
  congr 1
  have e2 : ((F[i].edge.map (across F i)).map φ).toFinset = (F[i].edge.map (across F i)).toFinset.image φ := by
    ext x
    simp only [List.mem_toFinset, List.mem_map, Finset.mem_image]
  rw [e2]
  apply Finset.card_image_of_injOn
  intro x hx y hy hxy
  have hx' := nbr_lt hF hf x (by simpa using hx)
  have hy' := nbr_lt hF hf y (by simpa using hy)
  exact h.pinj x y hx' hy' hxy

/-! ### The hash -/

theorem push_ok {data l : List Nat} (h : data.length ≤ 24) (hb : ∀ x ∈ data, x < 256) :
    (push data l).length ≤ 24 ∧ ∀ x ∈ push data l, x < 256 := by
  unfold push
  constructor
  · simp only [List.length_append, List.length_map, List.length_take]
    omega
  · intro x hx
    rcases List.mem_append.mp hx with h1 | h1
    · exact hb x h1
    · obtain ⟨y, -, rfl⟩ := List.mem_map.mp h1
      exact Nat.mod_lt _ (by decide)

theorem finish_ok {data : List Nat} (h : data.length ≤ 24) (hb : ∀ x ∈ data, x < 256) (v : List Nat) (big : Bool)
    (d : Nat) (g1 g2 g3 : Nat → Nat) :
    ∃ s, finish data v big ⟨d, seven g1, seven g2, seven g3⟩ = .ok s ∧ s.length = 31 ∧
      ∀ ch ∈ s, ch.isAlphanum = true ∨ ch = '+' ∨ ch = '/' := by
  have h1 := push_ok (l := [d]) h hb
  generalize hd1 : push data [d] = data1 at h1
  obtain ⟨data2, e2, h2⟩ : ∃ data2, addV big data1 v = .ok data2 ∧ data2.length ≤ 24 ∧ ∀ x ∈ data2, x < 256 := by
    cases big
    · exact ⟨data1, rfl, h1⟩
    · obtain ⟨w, w1, -⟩ := C24_canonicalorder_least v
      rw [addV, if_pos rfl, w1, ok_bind]
      exact ⟨_, rfl, push_ok h1.1 h1.2⟩
  have e3 : combined ⟨d, seven g1, seven g2, seven g3⟩ = .ok ([3, 4, 5, 6].map g1 ++ [3, 4, 5, 6].map g2 ++
      [3, 4, 5, 6].map g3 ++ List.replicate 9 0) := rfl
  obtain ⟨r, hr⟩ := compress_ok ([3, 4, 5, 6].map g1 ++ [3, 4, 5, 6].map g2 ++
      [3, 4, 5, 6].map g3 ++ List.replicate 9 0) 0 false (List.replicate 21 0) (by simp) (by simp)
  have h3 := push_ok (l := r) h2.1 h2.2
  generalize hd3 : push data2 r = data3 at h3
  obtain ⟨s, s1, s2, s3, -⟩ := C25_base64_injective 8 (data3 ++ List.replicate (24 - data3.length) 0)
    (by simp only [List.length_append, List.length_replicate]; omega)
    (by
      intro x hx
      rcases List.mem_append.mp hx with h4 | h4
      · exact h3.2 x h4
      · rw [(List.mem_replicate.mp h4).2]; decide)
  refine ⟨s.take 31, ?_, by rw [List.length_take, s2]; rfl, fun ch hch => s3 ch (List.mem_of_mem_take hch)⟩
  unfold finish
  simp only
  rw [hd1, e2, ok_bind, e3, ok_bind, hr, ok_bind, hd3, s1, ok_bind]

theorem regenHash_ok (qs : QSort) (nc : Nat) (hF : Twice m F) (h0 : F ≠ []) (K : List Comp) :
    ∃ s, regenHash qs nc m F K = .ok s ∧ s.length = 31 ∧ ∀ ch ∈ s, ch.isAlphanum = true ∨ ch = '+' ∨ ch = '/' := by
  rw [regenHash_eq qs hF h0]
  have h1 := push_ok (data := [nc % 256, m % 256, F.length % 256]) (l := F.map (·.edge.length)) (by simp) (by
    intro x hx
    simp only [List.mem_cons, List.not_mem_nil, or_false] at hx
    omega)
  have h2 := push_ok (l := [K.length]) h1.1 h1.2
  have h3 := push_ok (l := K.map (·.edge.length)) h2.1 h2.2
  exact finish_ok h3.1 h3.2 _ _ _ _ _ _

theorem sz_get {i : Nat} (hi : i < F.length) : (F.map (·.edge.length))[i]? = some (sz F i) := by
  rw [sz, List.getElem?_map, List.getElem?_eq_getElem hi]
  rfl

theorem sizes_same (h : SameFaces F G m τ φ o) (hs : F.Pairwise (fun a b => b.edge.length ≤ a.edge.length))
    (hs' : G.Pairwise (fun a b => b.edge.length ≤ a.edge.length)) :
    F.map (·.edge.length) = G.map (·.edge.length) := by
  refine sorted_reindex (κ := φ) (by simp [h.len]) (by simpa using h.plt) (by simpa using h.pinj) ?_
    (List.pairwise_map.mpr hs) (List.pairwise_map.mpr hs')
  intro i x hx
  have hi : i < F.length := by
    have := (List.getElem?_eq_some_iff.mp hx).1
    simpa using this
  rw [sz_get hi] at hx
  rw [sz_get (by rw [h.len]; exact h.plt i hi), sz_same h hi]
  exact hx

theorem big_eq (F : List Face) : (F.drop 1).all (fun f => decide (f.edge.length < sz F 0)) =
    ((F.map (·.edge.length)).drop 1).all (fun x => decide (x < ((F.map (·.edge.length))[0]?).getD 0)) := by
  rw [← List.map_drop, List.all_map]
  have : sz F 0 = ((F.map (·.edge.length))[0]?).getD 0 := by
    rw [sz, List.getElem?_map]
  rw [← this]
  rfl

/-- Corresponding diagrams have the same hash. -/
theorem regenHash_same (qs qs' : QSort) (nc : Nat) (hF : Twice m F) (hG : Twice m G) (h0 : F ≠ [])
    (h : SameFaces F G m τ φ o) (hs : F.Pairwise (fun a b => b.edge.length ≤ a.edge.length))
    (hs' : G.Pairwise (fun a b => b.edge.length ≤ a.edge.length)) {K L : List Comp}
    (hK : K.map (·.edge.length) = L.map (·.edge.length)) :
    regenHash qs nc m F K = regenHash qs' nc m G L := by
  have hG0 : G ≠ [] := by
    intro hg
    have := h.len
    rw [hg] at this
    exact h0 (List.length_eq_zero_iff.mp this.symm)
  have hKL : K.length = L.length := by
    have := congrArg List.length hK
    simpa using this
  have hsz := sizes_same h hs hs'
  rw [regenHash_eq qs hF h0, regenHash_eq qs' hG hG0, ← hsz, h.len, ← hK, ← hKL]
  have e1 := sum_reindex h.plt h.pinj (a := rep F) (b := rep G) (fun i hi => rep_same hF hG h hi)
  have e2 : ∀ k s, ((List.range F.length).map (nb G k s)).sum = ((List.range F.length).map (nb F k s)).sum :=
    fun k s => sum_reindex h.plt h.pinj (fun i hi => nb_same hF hG h k s hi)
  simp only [e1, e2]
  have eb : (G.drop 1).all (fun f => decide (f.edge.length < sz G 0)) =
      (F.drop 1).all (fun f => decide (f.edge.length < sz F 0)) := by
    rw [big_eq, big_eq, hsz]
  rw [eb]
  cases hb : (F.drop 1).all (fun f => decide (f.edge.length < sz F 0)) with
  | false => rfl
  | true =>
    have hpos := List.length_pos_iff.mpr h0
    have hφ : φ 0 = 0 := by
      by_contra hne
      have h1 := h.plt 0 hpos
      rw [hb] at eb
      rw [List.all_eq_true] at eb
      have hg : φ 0 < G.length := by rw [h.len]; exact h1
      have h2 := eb G[φ 0] (by
        rw [List.mem_iff_getElem?]
        exact ⟨φ 0 - 1, by rw [List.getElem?_drop, show 1 + (φ 0 - 1) = φ 0 by omega, List.getElem?_eq_getElem hg]⟩)
      have h3 := sz_get (F := F) hpos
      have hG' : 0 < G.length := by omega
      rw [hsz, sz_get (F := G) hG'] at h3
      have h4 : sz G 0 = sz F 0 := by simpa using h3
      have h5 := sz_same h hpos
      have h6 : sz G (φ 0) = G[φ 0].edge.length := by rw [sz, List.getElem?_eq_getElem hg]; rfl
      rw [decide_eq_true_eq] at h2
      omega
    have hv := around_same hF hG h hpos
    rw [hφ] at hv
    have hc := (C24_canonicalorder_canonical _ _).mpr hv.symm
    unfold finish addV
    simp only [if_true, hc]

/-! ### Good face records -/

theorem occ_length : ∀ (l : List Face) (i e : Nat), (occ l i e).length = (l.flatMap (·.edge)).count e
  | [], _, _ => rfl
  | f :: l, i, e => by
    rw [occ, List.length_append, List.length_replicate, occ_length l (i + 1) e, List.flatMap_cons, List.count_append]

theorem twice_of {cross : List Cross} {edge : List Edge} (hF : GoodFaces cross edge F) : Twice edge.length F := by
  have e1 : F.flatMap (·.edge) = (F.flatMap sides).map Prod.fst := by
    rw [List.map_flatMap]
    apply List.flatMap_congr
    intro f hf
    rw [sides, List.map_fst_zip (hF.shape f hf).1.le]
  have e2 : (F.flatMap (·.edge)).Perm (List.range edge.length ++ List.range edge.length) := by
    rw [e1]
    refine (hF.all.map Prod.fst).trans (List.Perm.of_eq ?_)
    rw [allSides, List.map_append, List.map_map, List.map_map]
    have : ∀ (n : Nat) (o : Or), (List.range n).map (Prod.fst ∘ fun e => (e, o)) = List.range n := by
      intro n o
      conv_rhs => rw [← List.map_id (List.range n)]
      rfl
    rw [this, this]
  refine ⟨?_, ?_, fun f hf => (hF.shape f hf).2⟩
  · intro f hf x hx
    have : x ∈ F.flatMap (·.edge) := List.mem_flatMap.mpr ⟨f, hf, hx⟩
    rw [e2.mem_iff] at this
    simpa using this
  · intro e he
    rw [occ_length, e2.count_eq, List.count_append, List.count_eq_one_of_mem List.nodup_range (by simpa using he)]

end Plc.HashGen
