import Verif.Proofs.Generate

/-! # Triangulations from systems of chords: lemmas about the triangles made -/

namespace Plc.Embed

open Plc.Core Plc.Tri

variable {n m : Nat} {lo hi : Nat → Nat}

/-! ## Neighbours in the table -/

theorem position_split {l A B : List CRef} {p : CRef} (h : l = A ++ p :: B) (hA : p ∉ A) : vitPosition p l = some A.length := by
  unfold vitPosition
  rw [h, List.findIdx?_eq_some_iff_getElem]
  refine ⟨by simp, by simp, ?_⟩
  intro j hj
  rw [List.getElem_append_left hj]
  simp only [decide_eq_true_eq]
  intro hc
  exact hA (hc ▸ List.getElem_mem hj)

theorem before_ok {f : CRef → Nat} {l : List CRef} {p q : CRef} (hs : l.Pairwise (fun a b => f a < f b)) (hp : p ∈ l) (hq : q ∈ l) (hlt : f q < f p)
    (hmax : ∀ x ∈ l, f x < f p → f x ≤ f q) : chordBefore p l = .ok q := by
  obtain ⟨A, B, e⟩ := List.append_of_mem hp
  have hs' := hs
  rw [e, List.pairwise_append, List.pairwise_cons] at hs'
  obtain ⟨sA, ⟨sp, _⟩, sAp⟩ := hs'
  have hA : p ∉ A := fun h => by have := sAp p h p (by simp); omega
  have hqA : q ∈ A := by
    rw [e] at hq
    rcases List.mem_append.mp hq with h | h
    · exact h
    · rcases List.mem_cons.mp h with h | h
      · rw [h] at hlt; omega
      · have := sp q h; omega
  have hne : A ≠ [] := by rintro rfl; simp at hqA
  obtain ⟨A', x, rfl⟩ := List.eq_nil_or_concat A |>.resolve_left hne
  rw [List.concat_eq_append] at *
  have hx : x = q := by
    rw [List.mem_append] at hqA
    rcases hqA with h | h
    · rw [List.pairwise_append] at sA
      have h1 := sA.2.2 q h x (by simp)
      have h2 := hmax x (by rw [e]; simp) (sAp x (by simp) p (by simp))
      omega
    · rw [List.mem_singleton] at h; exact h.symm
  unfold chordBefore
  rw [position_split e hA]
  simp only [List.length_append, List.length_singleton]
  refine rd_eq_ok.mpr ?_
  rw [e, hx]
  simp

theorem after_ok {f : CRef → Nat} {l : List CRef} {p q : CRef} (hs : l.Pairwise (fun a b => f a < f b)) (hp : p ∈ l) (hq : q ∈ l) (hlt : f p < f q)
    (hmin : ∀ x ∈ l, f p < f x → f q ≤ f x) : chordAfter p l = .ok q := by
  obtain ⟨A, B, e⟩ := List.append_of_mem hp
  have hs' := hs
  rw [e, List.pairwise_append, List.pairwise_cons] at hs'
  obtain ⟨sA, ⟨sp, sB⟩, sAp⟩ := hs'
  have hA : p ∉ A := fun h => by have := sAp p h p (by simp); omega
  have hqB : q ∈ B := by
    rw [e] at hq
    rcases List.mem_append.mp hq with h | h
    · have := sAp q h p (by simp); omega
    · rcases List.mem_cons.mp h with h | h
      · rw [h] at hlt; omega
      · exact h
  rcases B with _ | ⟨x, B⟩
  · simp at hqB
  have hx : x = q := by
    rcases List.mem_cons.mp hqB with h | h
    · exact h.symm
    · have h1 := (List.pairwise_cons.mp sB).1 q h
      have h2 := hmin x (by rw [e]; simp) (sp x (by simp))
      omega
  unfold chordAfter
  rw [position_split e hA]
  simp only
  rw [if_neg (by rw [e]; simp)]
  refine rd_eq_ok.mpr ?_
  rw [e, hx]
  simp

/-- The chord or edge from position `i` to the later position `v`. -/
def Ref (m : Nat) (lo hi : Nat → Nat) (i v : Nat) (c : CRef) : Prop := (v = i + 1 ∧ c = ⟨false, i + 1⟩) ∨ ∃ k, k < m ∧ lo k = i ∧ hi k = v ∧ c = ⟨true, k⟩

/-- The chord from `i` to `j` as parent: a diagonal, or edge 0, which is from the last position to the first. -/
def Par (n m : Nat) (lo hi : Nat → Nat) (i j : Nat) (c : CRef) : Prop := (i = 0 ∧ j + 1 = n ∧ c = ⟨false, 0⟩) ∨ ∃ k, k < m ∧ lo k = i ∧ hi k = j ∧ c = ⟨true, k⟩

theorem ref_of_link {i v : Nat} (h : Link m lo hi i v) : ∃ c, Ref m lo hi i v c := by
  rcases h with h | ⟨k, h1, h2, h3⟩
  · exact ⟨_, .inl ⟨h, rfl⟩⟩
  · exact ⟨_, .inr ⟨k, h1, h2, h3, rfl⟩⟩

theorem daughters (P : Poly n m lo hi) {vi : List (List CRef)} (hT : Table n m lo hi vi) {i v j : Nat} {p c d : CRef} (hp : Par n m lo hi i j p) (hiv : i < v)
    (hvj : v < j) (hj : j < n) (hc : Ref m lo hi i v c) (hd : Ref m lo hi v j d) (hmax : ∀ v', Link m lo hi i v' → v' < j → v' ≤ v)
    (hmin : ∀ q, i < q → Link m lo hi q j → v ≤ q) : ∃ la lb, rd vi (vx n i) = .ok la ∧ chordBefore p la = .ok c ∧ rd vi (vx n j) = .ok lb ∧ chordAfter p lb = .ok d := by
  obtain ⟨la, a1, a2, a3⟩ := hT i (by omega)
  obtain ⟨lb, b1, b2, b3⟩ := hT j hj
  have h4 := P.four
  have wi := vx_cases (n := n) (p := i) (by omega)
  have wj := vx_cases (n := n) (p := j) (by omega)
  have pi : Inc n m lo hi i p := by
    rcases hp with ⟨h1, h2, h3⟩ | ⟨k, h1, h2, h3, h4⟩
    · right; left; rw [h3, h1]
    · exact .inr (.inr ⟨k, h1, h4, .inl h2⟩)
  have pj : Inc n m lo hi j p := by
    rcases hp with ⟨h1, h2, h3⟩ | ⟨k, h1, h2, h3, h4⟩
    · left; rw [h3]; congr 1; omega
    · exact .inr (.inr ⟨k, h1, h4, .inr h3⟩)
  have ki : key n lo hi i p = j - i := by
    rcases hp with ⟨h1, h2, h3⟩ | ⟨k, h1, h2, h3, h4⟩
    · rw [h3]; unfold key; simp only [Bool.false_eq_true, if_false]; rw [if_neg (by omega)]; omega
    · rw [h4]; unfold key; simp only [if_true]; rw [if_pos h2]; omega
  have kj : key n lo hi j p = i + n - j := by
    rcases hp with ⟨h1, h2, h3⟩ | ⟨k, h1, h2, h3, h4⟩
    · rw [h3]; unfold key; simp only [Bool.false_eq_true, if_false]; rw [if_pos (by omega)]; omega
    · rw [h4]; unfold key; simp only [if_true]; rw [if_neg (by omega)]; omega
  have ci : Inc n m lo hi i c := by
    rcases hc with ⟨h1, h2⟩ | ⟨k, h1, h2, h3, h4⟩
    · left; rw [h2]; congr 1; omega
    · exact .inr (.inr ⟨k, h1, h4, .inl h2⟩)
  have kc : key n lo hi i c = v - i := by
    rcases hc with ⟨h1, h2⟩ | ⟨k, h1, h2, h3, h4⟩
    · rw [h2]; unfold key; simp only [Bool.false_eq_true, if_false]; rw [if_pos (by omega)]; omega
    · rw [h4]; unfold key; simp only [if_true]; rw [if_pos h2]; omega
  have dj : Inc n m lo hi j d := by
    rcases hd with ⟨h1, h2⟩ | ⟨k, h1, h2, h3, h4⟩
    · right; left; rw [h2]; congr 1; omega
    · exact .inr (.inr ⟨k, h1, h4, .inr h3⟩)
  have kd : key n lo hi j d = v + n - j := by
    rcases hd with ⟨h1, h2⟩ | ⟨k, h1, h2, h3, h4⟩
    · rw [h2]; unfold key; simp only [Bool.false_eq_true, if_false]; rw [if_neg (by omega)]; omega
    · rw [h4]; unfold key; simp only [if_true]; rw [if_neg (by omega)]; omega
  refine ⟨la, lb, rd_eq_ok.mpr a1, before_ok a2 ((a3 p).mpr pi) ((a3 c).mpr ci) (by omega) ?_, rd_eq_ok.mpr b1,
    after_ok b2 ((b3 p).mpr pj) ((b3 d).mpr dj) (by omega) ?_⟩
  · intro x hx
    rw [ki, kc]
    rcases (a3 x).mp hx with rfl | rfl | ⟨k, hk, rfl, hk'⟩
    · intro _; unfold key; simp only [Bool.false_eq_true, if_false, if_true]; omega
    · unfold key; simp only [Bool.false_eq_true, if_false]; rw [if_neg (Ne.symm (vx_ne h4))]; omega
    · have g1 := P.gap k hk
      have g2 := P.top k hk
      unfold key
      simp only [if_true]
      split
      · rename_i e
        intro hlt
        have := hmax (hi k) (.inr ⟨k, hk, e, rfl⟩) (by omega)
        omega
      · intro hlt; omega
  · intro x hx
    rw [kj, kd]
    rcases (b3 x).mp hx with rfl | rfl | ⟨k, hk, rfl, hk'⟩
    · unfold key; simp only [Bool.false_eq_true, if_false, if_true]; omega
    · intro _; unfold key; simp only [Bool.false_eq_true, if_false]; rw [if_neg (Ne.symm (vx_ne h4))]; omega
    · have g1 := P.gap k hk
      have g2 := P.top k hk
      unfold key
      simp only [if_true]
      split
      · intro hlt; omega
      · rename_i e
        intro hlt
        have := hmin (lo k) (by omega) (.inr ⟨k, hk, rfl, by omega⟩)
        omega

/-! ## Orienting -/

theorem orient_ok (P : Poly n m lo hi) {diags : List Chord} (hL : Laid n m lo hi diags) {a b : Nat} {c : CRef} {q : Chord} (hab : a < b) (hb : b < n)
    (hc : Ref m lo hi a b c) (h1 : q.1 = vx n b ∨ q.2 = vx n a) (h2 : q.1 ≠ vx n a) (h3 : q.2 ≠ vx n b) :
    ∃ ds, orientOne q c diags = .ok ds ∧ Laid n m lo hi ds ∧ (∀ k, c = ⟨true, k⟩ → ds[k]? = some (vx n a, vx n b)) ∧
      ∀ l, c ≠ ⟨true, l⟩ → ds[l]? = diags[l]? := by
  rcases hc with ⟨e1, e2⟩ | ⟨k, hk, e1, e2, e3⟩
  · refine ⟨diags, ?_, hL, ?_, fun _ _ => rfl⟩
    · rw [e2]; rfl
    · intro k hk; rw [e2] at hk; simp at hk
  · have hx : vx n a ≠ vx n b := by rw [Ne, vx_inj (by omega) hb]; omega
    have hlen : k < diags.length := by rw [hL.len]; exact hk
    rcases hL.chord k hk with h | h
    · rw [e1, e2] at h
      refine ⟨diags, ?_, hL, ?_, fun _ _ => rfl⟩
      · rw [e3]
        unfold orientOne
        simp only [if_true]
        rw [rd_eq_ok.mpr h, ok_bind, if_neg (by simp only; push Not; exact ⟨h2, h3⟩)]
      · intro l hl; rw [e3] at hl; cases hl; exact h
    · rw [e1, e2] at h
      refine ⟨diags.set k (vx n a, vx n b), ?_, ⟨by rw [List.length_set]; exact hL.len, ?_⟩, ?_, ?_⟩
      · rw [e3]
        unfold orientOne
        simp only [if_true]
        rw [rd_eq_ok.mpr h, ok_bind, if_pos (by simpa using h1), wr_lt hlen]
      · intro l hl
        rw [List.getElem?_set]
        by_cases hkl : k = l
        · rw [if_pos hkl, if_pos hlen, ← hkl, e1, e2]; exact .inl rfl
        · rw [if_neg hkl]; exact hL.chord l hl
      · intro l hl; rw [e3] at hl; cases hl; rw [List.getElem?_set, if_pos rfl, if_pos hlen]
      · intro l hl
        rw [List.getElem?_set, if_neg (fun h => hl (by rw [e3, h]))]

/-! ## The triangles -/

/-- The vertices strictly between. -/
def seg (n i v : Nat) : List Nat := (List.range (v - i - 1)).map (fun q => vx n (i + 1 + q))

theorem seg_append {i v j : Nat} (h1 : i < v) (h2 : v < j) : seg n i v ++ vx n v :: seg n v j = seg n i j := by
  unfold seg
  rw [show j - i - 1 = (v - i - 1) + ((j - v - 1) + 1) by omega, List.range_add, List.map_append, List.map_map, List.range_succ_eq_map, List.map_cons,
    List.map_map]
  congr 1
  congr 1
  · simp only [Function.comp]; congr 1; omega
  · apply List.map_congr_left
    intro q _
    simp only [Function.comp]; congr 1; omega

/-- The diagonals in `S`, and the edges between positions `i` and `j`. -/
def Covers (S : Finset Nat) (i j : Nat) (cs : List CRef) : Prop :=
  cs.Nodup ∧ ∀ c, c ∈ cs ↔ (∃ k ∈ S, c = ⟨true, k⟩) ∨ ∃ e, i < e ∧ e ≤ j ∧ c = ⟨false, e⟩

theorem covers_append {S R : Finset Nat} {i v j : Nat} {cs ds : List CRef} (hd : Disjoint S R) (h1 : i < v) (h2 : v < j) (hc : Covers S i v cs) (hd' : Covers R v j ds) :
    Covers (S ∪ R) i j (cs ++ ds) := by
  refine ⟨?_, ?_⟩
  · rw [List.nodup_append]
    refine ⟨hc.1, hd'.1, ?_⟩
    rintro a ha b hb rfl
    rcases (hc.2 a).mp ha with ⟨k, hk, rfl⟩ | ⟨e, e1, e2, rfl⟩ <;> rcases (hd'.2 _).mp hb with ⟨l, hl, h⟩ | ⟨e', e3, e4, h⟩
    · cases h; exact Finset.disjoint_left.mp hd hk hl
    · cases h
    · cases h
    · cases h; omega
  · intro c
    rw [List.mem_append, hc.2, hd'.2]
    constructor
    · rintro ((⟨k, hk, h⟩ | ⟨e, e1, e2, h⟩) | (⟨k, hk, h⟩ | ⟨e, e1, e2, h⟩))
      · exact .inl ⟨k, Finset.mem_union_left _ hk, h⟩
      · exact .inr ⟨e, e1, by omega, h⟩
      · exact .inl ⟨k, Finset.mem_union_right _ hk, h⟩
      · exact .inr ⟨e, by omega, e2, h⟩
    · rintro (⟨k, hk, h⟩ | ⟨e, e1, e2, h⟩)
      · rcases Finset.mem_union.mp hk with hk | hk
        · exact .inl (.inl ⟨k, hk, h⟩)
        · exact .inr (.inl ⟨k, hk, h⟩)
      · by_cases he : e ≤ v
        · exact .inl (.inr ⟨e, e1, he, h⟩)
        · exact .inr (.inr ⟨e, by omega, e2, h⟩)

/-- The edges of the polygon. -/
def ring (n : Nat) : List Chord := (List.range n).map (fun i => (i, (i + 1) % n))

/-- The triangulation has the edges, and what was built: the triangles made, and the diagonals in `S`. -/
def Agrees (n : Nat) (T : Triangulation) (st : Built) (a b : Nat) (S : Finset Nat) : Prop :=
  T.edges = ring n ∧ (∀ s, a ≤ s → s < b → T.triangles[s]? = st.triangles[s]?) ∧ ∀ k ∈ S, T.diags[k]? = st.diags[k]?

/-- What is to be shown about a call. -/
def Builds (n m : Nat) (lo hi : Nat → Nat) (vi : List (List CRef)) (f : Nat) : Prop :=
  ∀ (i j : Nat) (p : CRef) (st : Built), j - i ≤ f → i + 2 ≤ j → j < n → Par n m lo hi i j p → (below m lo hi i j).card = j - i - 2 →
    Laid n m lo hi st.diags → (∀ k, p = ⟨true, k⟩ → st.diags[k]? = some (vx n i, vx n j)) → st.used + (j - i - 1) ≤ st.triangles.length →
    ∃ st', build n (ring n) vi f p st = .ok st' ∧ Laid n m lo hi st'.diags ∧ st'.used = st.used + (j - i - 1) ∧
      st'.triangles.length = st.triangles.length ∧ (∀ s, s < st.used → st'.triangles[s]? = st.triangles[s]?) ∧
      (∀ k, k ∉ below m lo hi i j → st'.diags[k]? = st.diags[k]?) ∧
      ∃ (v : Nat) (cs ds : List CRef) (t : Triangle), i < v ∧ v < j ∧ st'.triangles[st.used]? = some t ∧ t.parent = p ∧
        Covers (below m lo hi i j) i j (cs ++ ds) ∧
        ∀ T, Agrees n T st' st.used st'.used (below m lo hi i j) →
          Behind T t.d0 t.t0 (vx n i) (vx n v) (seg n i v) cs ∧ Behind T t.d1 t.t1 (vx n v) (vx n j) (seg n v j) ds

theorem ring_get {i : Nat} (h : i < n) : (ring n)[i]? = some (i, (i + 1) % n) := by
  unfold ring
  rw [List.getElem?_map, List.getElem?_range h]
  rfl

theorem side_ok (P : Poly n m lo hi) {vi : List (List CRef)} {f : Nat} (ih : Builds n m lo hi vi f) {a b : Nat} {c : CRef} {st : Built} {u : Nat} {t : Triangle}
    (second : Bool) (hf : b - a ≤ f) (hab : a < b) (hb : b < n) (hc : Ref m lo hi a b c) (hfull : a + 2 ≤ b → (below m lo hi a b).card = b - a - 2)
    (hL : Laid n m lo hi st.diags) (ho : ∀ k, c = ⟨true, k⟩ → st.diags[k]? = some (vx n a, vx n b)) (hroom : st.used + (b - a - 1) ≤ st.triangles.length)
    (hu : u < st.used) (ht : st.triangles[u]? = some t) :
    ∃ st', (if c.diag then do
        let ts ← setDaughter st.triangles u second st.used
        build n (ring n) vi f c ⟨ts, st.diags, st.used⟩
      else .ok st) = .ok st' ∧ Laid n m lo hi st'.diags ∧ st'.used = st.used + (b - a - 1) ∧ st'.triangles.length = st.triangles.length ∧
      (∀ s, s < st.used → s ≠ u → st'.triangles[s]? = st.triangles[s]?) ∧
      st'.triangles[u]? = some (if c.diag then (if second then { t with t1 := some st.used } else { t with t0 := some st.used }) else t) ∧
      (∀ k, k ∉ within m lo hi a b → st'.diags[k]? = st.diags[k]?) ∧
      ∃ cs : List CRef, Covers (within m lo hi a b) a b cs ∧
        ∀ T, Agrees n T st' st.used st'.used (within m lo hi a b) →
          Behind T c (if c.diag then some st.used else none) (vx n a) (vx n b) (seg n a b) cs := by
  rcases hc with ⟨e1, e2⟩ | ⟨k, hk, e1, e2, e3⟩
  · subst e2
    refine ⟨st, rfl, hL, by omega, rfl, fun _ _ _ => rfl, ht, fun _ _ => rfl, [⟨false, a + 1⟩], ?_, ?_⟩
    · rw [within_step P.toSys (by omega)]
      refine ⟨by simp, ?_⟩
      intro c
      rw [List.mem_singleton]
      constructor
      · intro h; exact .inr ⟨a + 1, by omega, by omega, h⟩
      · rintro (⟨k, hk, _⟩ | ⟨e, h1, h2, h3⟩)
        · simp at hk
        · rw [h3]; congr 1; omega
    · intro T hT
      have hs : seg n a b = [] := by unfold seg; rw [show b - a - 1 = 0 by omega]; rfl
      rw [hs]
      refine Behind.edge (a + 1) _ _ ?_
      rw [hT.1, ring_get (by omega), vx_mod (by omega), e1]
      congr 2
      unfold vx
      rw [if_neg (by omega)]
  · subst e3
    have g1 := P.gap k hk
    have hul : u < st.triangles.length := (List.getElem?_eq_some_iff.mp ht).1
    obtain ⟨t', et⟩ : ∃ t', t' = (if second then { t with t1 := some st.used } else { t with t0 := some st.used } : Triangle) := ⟨_, rfl⟩
    have hset : setDaughter st.triangles u second st.used = .ok (st.triangles.set u t') := by
      unfold setDaughter
      rw [rd_eq_ok.mpr ht, ok_bind, wr_lt hul, et]
    obtain ⟨st', r1, r2, r3, r4, r5, r6, v, cs, ds, t2, v1, v2, r7, r8, r9, r10⟩ := ih a b ⟨true, k⟩ ⟨st.triangles.set u t', st.diags, st.used⟩ hf (by omega) hb
      (.inr ⟨k, hk, e1, e2, rfl⟩) (hfull (by omega)) hL ho (by simp only [List.length_set]; exact hroom)
    simp only at r3 r4 r5 r6 r7 r10
    have hkb : k ∉ below m lo hi a b := by
      simp only [below, Finset.mem_filter, Finset.mem_range]
      rintro ⟨_, _, h⟩; exact h ⟨e1, e2⟩
    have hw : ∀ l, l ∈ within m lo hi a b ↔ l ∈ below m lo hi a b ∨ l = k := by
      intro l
      simp only [within, below, Finset.mem_filter, Finset.mem_range]
      constructor
      · rintro ⟨h1, h2⟩
        by_cases h : lo l = a ∧ hi l = b
        · right; exact P.inj l k h1 hk (by omega) (by omega)
        · left; exact ⟨h1, h2, h⟩
      · rintro (⟨h1, h2, _⟩ | h)
        · exact ⟨h1, h2⟩
        · rw [h]; exact ⟨hk, by omega, by omega⟩
    refine ⟨st', ?_, r2, r3, by rw [r4, List.length_set], ?_, ?_, ?_, ⟨true, k⟩ :: (cs ++ ds), ⟨?_, ?_⟩, ?_⟩
    · simp only [if_true]
      rw [hset, ok_bind]
      exact r1
    · intro s hs hsu
      rw [r5 s hs, List.getElem?_set, if_neg (fun h => hsu h.symm)]
    · rw [r5 u hu, List.getElem?_set, if_pos rfl, if_pos hul]
      simp only [if_true, et]
    · intro l hl
      exact r6 l (fun h => hl ((hw l).mpr (.inl h)))
    · rw [List.nodup_cons]
      refine ⟨?_, r9.1⟩
      rw [r9.2]
      rintro (⟨l, hl, h⟩ | ⟨e, _, _, h⟩)
      · cases h; exact hkb hl
      · cases h
    · intro x
      rw [List.mem_cons, r9.2]
      constructor
      · rintro (h | ⟨l, hl, h⟩ | h)
        · exact .inl ⟨k, (hw k).mpr (.inr rfl), h⟩
        · exact .inl ⟨l, (hw l).mpr (.inl hl), h⟩
        · exact .inr h
      · rintro (⟨l, hl, h⟩ | h)
        · rcases (hw l).mp hl with h' | h'
          · exact .inr (.inl ⟨l, h', h⟩)
          · left; rw [h, h']
        · exact .inr (.inr h)
    · intro T hT
      obtain ⟨b1, b2⟩ := r10 T ⟨hT.1, hT.2.1, fun l hl => hT.2.2 l ((hw l).mpr (.inl hl))⟩
      rw [← seg_append v1 v2]
      refine Behind.diag k _ _ _ _ t2 _ _ _ _ ?_ ?_ r8 b1 b2
      · rw [hT.2.2 k ((hw k).mpr (.inr rfl)), r6 k hkb]
        exact ho k rfl
      · rw [hT.2.1 st.used (le_refl _) (by omega)]; exact r7

set_option maxHeartbeats 1600000 in
theorem build_step (P : Poly n m lo hi) {vi : List (List CRef)} (hT : Table n m lo hi vi) {f : Nat} (ih : Builds n m lo hi vi f) : Builds n m lo hi vi (f + 1) := by
    intro i j p st hf hij hj hp hfull hL ho hroom
    have h4 := P.four
    obtain ⟨v, v1, v2, l1, l2, hmax, hmin, f1, f2, hsp⟩ := full_split P.toSys hij hfull
    obtain ⟨c, hc⟩ := ref_of_link l1
    obtain ⟨d, hd⟩ := ref_of_link l2
    obtain ⟨la, lb, q1, q2, q3, q4⟩ := daughters P hT hp v1 v2 hj hc hd hmax hmin
    have ne1 : vx n i ≠ vx n j := by rw [Ne, vx_inj (by omega) hj]; omega
    have ne2 : vx n i ≠ vx n v := by rw [Ne, vx_inj (by omega) (by omega)]; omega
    have ne3 : vx n v ≠ vx n j := by rw [Ne, vx_inj (by omega) hj]; omega
    have w0 : i = 0 → vx n i = 1 := by intro h; unfold vx; rw [if_neg (by omega)]; omega
    have w1 : j + 1 = n → vx n j = 0 := by intro h; unfold vx; rw [if_pos h]
    have hpe : parentEnds n p st.diags = .ok (vx n i, vx n j) := by
      rcases hp with ⟨h1, h2, h3⟩ | ⟨k, h1, h2, h3, h5⟩
      · rw [h3]; unfold parentEnds; simp only [Bool.false_eq_true, if_false]
        rw [w0 h1, w1 h2, Nat.mod_eq_of_lt (by omega)]
      · rw [h5]; unfold parentEnds; simp only [if_true]
        exact rd_eq_ok.mpr (ho k h5)
    have hpp : parentPos (ring n) p st.diags = .ok (vx n j, vx n i) := by
      rcases hp with ⟨h1, h2, h3⟩ | ⟨k, h1, h2, h3, h5⟩
      · rw [h3]; unfold parentPos; simp only [Bool.false_eq_true, if_false]
        rw [w0 h1, w1 h2]
        refine rd_eq_ok.mpr ?_
        rw [ring_get (by omega), Nat.mod_eq_of_lt (by omega)]
      · rw [h5]; unfold parentPos; simp only [if_true]
        rw [rd_eq_ok.mpr (ho k h5)]; rfl
    have hul : st.used < st.triangles.length := by omega
    obtain ⟨t0, et0⟩ : ∃ t0 : Triangle, t0 = ⟨p, c, d, if c.diag then some 0 else none, if d.diag then some 0 else none⟩ := ⟨_, rfl⟩
    obtain ⟨ds1, o1, o2, o3, o4⟩ := orient_ok P hL (q := (vx n j, vx n i)) v1 (by omega) hc (.inr rfl) (fun h => ne1 h.symm) ne2
    obtain ⟨ds2, o5, o6, o7, o8⟩ := orient_ok P o2 (q := (vx n j, vx n i)) v2 hj hd (.inl rfl) (fun h => ne3 h.symm) ne1
    have hcd : ∀ k, c = ⟨true, k⟩ → d ≠ ⟨true, k⟩ := by
      intro k hk hk'
      rcases hc with ⟨_, e⟩ | ⟨k1, _, e1, e2, e3⟩
      · rw [e] at hk; cases hk
      · rcases hd with ⟨_, e⟩ | ⟨k2, _, e4, e5, e6⟩
        · rw [e] at hk'; cases hk'
        · rw [e3] at hk; cases hk
          rw [e6] at hk'; cases hk'
          omega
    obtain ⟨s1, a1, a2, a3, a4, a5, a6, a7, cs, a8, a9⟩ := side_ok P ih (st := ⟨st.triangles.set st.used t0, ds2, st.used + 1⟩) (u := st.used) (t := t0) false
      (by omega) v1 (by omega) hc f1 o6 (fun k hk => by rw [o8 k (hcd k hk)]; exact o3 k hk) (by simp only [List.length_set]; omega) (by simp only; omega)
      (by simp only; rw [List.getElem?_set, if_pos rfl, if_pos hul])
    simp only at a1 a3 a4 a5 a6 a7 a9
    have hdw : ∀ k, d = ⟨true, k⟩ → k ∉ within m lo hi i v := by
      intro k hk hw
      rcases hd with ⟨_, e⟩ | ⟨k2, h1, e4, e5, e6⟩
      · rw [e] at hk; cases hk
      · rw [e6] at hk; cases hk
        simp only [within, Finset.mem_filter] at hw
        have := P.gap k h1
        omega
    obtain ⟨t1, et1⟩ : ∃ t1, t1 = (if c.diag then { t0 with t0 := some (st.used + 1) } else t0 : Triangle) := ⟨_, rfl⟩
    have a6' : s1.triangles[st.used]? = some t1 := by
      rw [a6, et1]; simp
    obtain ⟨s2, b1, b2, b3, b4, b5, b6, b7, ds, b8, b9⟩ := side_ok P ih (st := s1) (u := st.used) (t := t1) true (by omega) v2 hj hd f2 a2
      (fun k hk => by rw [a7 k (hdw k hk)]; exact o7 k hk) (by rw [a4, List.length_set]; omega) (by omega) a6'
    have hcov := covers_append (within_disjoint P.toSys) v1 v2 a8 b8
    rw [← hsp] at hcov
    obtain ⟨t2, et2⟩ : ∃ t2, t2 = (if d.diag then (if true = true then { t1 with t1 := some s1.used } else { t1 with t0 := some s1.used }) else t1 : Triangle) := ⟨_, rfl⟩
    rw [← et2] at b6
    have m1 : ∀ k, k ∈ within m lo hi i v → k ∈ below m lo hi i j := fun k h => by rw [hsp]; exact Finset.mem_union_left _ h
    have m2 : ∀ k, k ∈ within m lo hi v j → k ∈ below m lo hi i j := fun k h => by rw [hsp]; exact Finset.mem_union_right _ h
    have hcw : ∀ k, c = ⟨true, k⟩ → k ∈ within m lo hi i v := by
      intro k hk
      rcases hc with ⟨_, e⟩ | ⟨k2, h1, e4, e5, e6⟩
      · rw [e] at hk; cases hk
      · rw [e6] at hk; cases hk
        simp only [within, Finset.mem_filter, Finset.mem_range]
        omega
    have hdw' : ∀ k, d = ⟨true, k⟩ → k ∈ within m lo hi v j := by
      intro k hk
      rcases hd with ⟨_, e⟩ | ⟨k2, h1, e4, e5, e6⟩
      · rw [e] at hk; cases hk
      · rw [e6] at hk; cases hk
        simp only [within, Finset.mem_filter, Finset.mem_range]
        omega
    refine ⟨s2, ?_, b2, by omega, by rw [b4, a4, List.length_set], ?_, ?_, v, cs, ds, t2, v1, v2, b6, ?_, hcov, ?_⟩
    · unfold build
      rw [hpe, ok_bind, q1, ok_bind, q2, ok_bind, q3, ok_bind, q4, ok_bind, wr_lt hul, ok_bind, hpp, ok_bind, o1, ok_bind, o5, ok_bind, ← et0, a1, ok_bind]
      exact b1
    · intro s hs
      rw [b5 s (by omega) (by omega), a5 s (by omega) (by omega), List.getElem?_set, if_neg (by omega)]
    · intro k hk
      rw [b7 k (fun h => hk (m2 k h)), a7 k (fun h => hk (m1 k h)), o8 k (fun h => hk (m2 k (hdw' k h))), o4 k (fun h => hk (m1 k (hcw k h)))]
    · rw [et2, et1, et0]; cases c.diag <;> cases d.diag <;> rfl
    · intro T hA
      have h0 : t2.d0 = c ∧ t2.d1 = d ∧ t2.t0 = (if c.diag then some (st.used + 1) else none) ∧ t2.t1 = (if d.diag then some s1.used else none) := by
        rw [et2, et1, et0]; cases c.diag <;> cases d.diag <;> simp
      rw [h0.1, h0.2.1, h0.2.2.1, h0.2.2.2]
      refine ⟨a9 T ⟨hA.1, ?_, ?_⟩, b9 T ⟨hA.1, ?_, ?_⟩⟩
      · intro s hs1 hs2
        rw [hA.2.1 s (by omega) (by omega), b5 s hs2 (by omega)]
      · intro k hk
        rw [hA.2.2 k (m1 k hk), b7 k]
        intro h
        exact Finset.disjoint_left.mp (within_disjoint P.toSys) hk h
      · intro s hs1 hs2
        exact hA.2.1 s (by omega) hs2
      · intro k hk
        exact hA.2.2 k (m2 k hk)

theorem build_ok (P : Poly n m lo hi) {vi : List (List CRef)} (hT : Table n m lo hi vi) (f : Nat) : Builds n m lo hi vi f := by
  induction f with
  | zero => intro i j p st h1 h2; omega
  | succ f ih => exact build_step P hT ih

end Plc.Embed
