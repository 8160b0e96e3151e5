import Verif.Proofs.IsoDir
import Verif.Proofs.ShapeEq
import Verif.Proofs.Std

/-! # C52, C53: isomorphisms of diagrams -/

namespace Plc

open Plc.Cmp Plc.PermM Plc.Emap Plc.Isos Plc.Ok Plc.IsoSearch Plc.Regenerate

/-- A diagram as `pd_regenerate` leaves it in buffers from `pd_code_new(mv)`, hash included; at most 12
components, and the numbers `2 * nedges` of the components multiply to less than `2^32`. -/
structure Searchable (mv : Nat) (pd : Io.Pd) : Prop where
  tidy : Tidy pd.cross pd.edge pd.comp pd.face
  room : pd.cross.length ≤ mv
  hash : ∃ qs : QSort, HashGen.regenHash qs pd.cross.length pd.edge.length pd.face pd.comp = .ok pd.hash
  comps : pd.comp.length ≤ 12
  product : (pd.comp.map (fun k => 2 * k.edge.length)).prod < 2 ^ 32

/-- The maps in an isomorphism are those of an isomorphism from `A` to `B`, of orientation `o` at crossings
and faces alike. -/
def IsoFrom (A B : Io.Pd) (o : Or) (i : Iso) : Prop :=
  ∃ cm, i.cmap = some cm ∧ cm.orient = o ∧ i.fmap.orient = o ∧
    IsoMaps A B i.comp.map i.emap.perm.map i.emap.orient cm.perm.map o i.fmap.perm.map o

/-- **C52.** `pd_build_isos` lists isomorphisms only, all of them, and none twice. -/
theorem C52_all_isomorphisms (qs : QSort) (bs : BSearch) (mvA mvB : Nat) (A B : Io.Pd) (hA : Searchable mvA A)
    (hB : Searchable mvB B) :
    ∃ L, buildIsos qs bs false (Io.capsNew mvA) (Io.capsNew mvB) A B = .ok L ∧
      (∀ i ∈ L, ∃ o, (o = .pos ∨ o = .neg) ∧ IsoFrom A B o i) ∧
      (∀ κ τ os σ o φ, (o = .pos ∨ o = .neg) → IsoMaps A B κ τ os σ o φ o →
        ∃ i ∈ L, i.comp.map = κ ∧ i.emap.perm.map = τ ∧ i.emap.orient = os ∧ i.fmap.perm.map = φ ∧ i.fmap.orient = o ∧
          ∃ cm, i.cmap = some cm ∧ cm.perm.map = σ ∧ cm.orient = o) ∧
      (∀ (m n : Nat) i j, L[m]? = some i → L[n]? = some j → isoData i = isoData j → m = n) := by
  obtain ⟨qA, hqA⟩ := hA.hash
  obtain ⟨qB, hqB⟩ := hB.hash
  obtain ⟨L, l1, l2, l3, l4⟩ := buildIsos_ok qs qA qB bs mvA mvB hA.tidy hB.tidy hA.room hB.room hqA hqB hA.comps hA.product
  refine ⟨L.reverse, by rw [l1 false]; rfl, ?_, ?_, ?_⟩
  · intro i hi
    rw [List.mem_reverse] at hi
    obtain ⟨cm, hcm⟩ := Option.ne_none_iff_exists'.mp (l3 i hi).1
    have := (l4 i.comp.map i.emap.perm.map i.emap.orient cm.orient cm.perm.map i.fmap.orient i.fmap.perm.map).mp
      (List.mem_map.mpr ⟨i, hi, by simp [isoData, hcm]⟩)
    obtain ⟨h1, h2, h3⟩ := this
    refine ⟨cm.orient, ?_, cm, hcm, rfl, h1.symm, ?_⟩
    · revert h2
      cases cm.orient <;> simp
    · rw [← h1] at h3
      exact h3
  · intro κ τ os σ o φ ho h
    obtain ⟨i, hi, hd⟩ := List.mem_map.mp ((l4 κ τ os o σ o φ).mpr ⟨rfl, by rcases ho with rfl | rfl <;> simp, h⟩)
    obtain ⟨cm, hcm⟩ := Option.ne_none_iff_exists'.mp (l3 i hi).1
    simp only [isoData, hcm, Prod.mk.injEq] at hd
    obtain ⟨h1, ⟨h2, h3⟩, ⟨h4, h5⟩, h6, h7⟩ := hd
    exact ⟨i, List.mem_reverse.mpr hi, h1, h2, h3, h7, h6, cm, hcm, h5, h4⟩
  · intro m n i j hm hn hij
    have hnd : (L.reverse.map isoData).Nodup := by
      rw [List.map_reverse, List.nodup_reverse]
      exact l2
    obtain ⟨m1, m2⟩ := List.getElem?_eq_some_iff.mp hm
    obtain ⟨n1, n2⟩ := List.getElem?_eq_some_iff.mp hn
    refine (List.Nodup.getElem_inj_iff hnd (hi := by simpa using m1) (hj := by simpa using n1)).mp ?_
    rw [List.getElem_map, List.getElem_map, m2, n2, hij]

theorem IsoSearch.shadow_or {A B : List Cross} {m : Nat} {τ σ : Nat → Nat} {o : Or} (h : SameShadow A B m τ σ o) :
    ∃ o', (o' = .pos ∨ o' = .neg) ∧ SameShadow A B m τ σ o' := by
  cases o with
  | pos => exact ⟨.pos, .inl rfl, h⟩
  | neg => exact ⟨.neg, .inr rfl, h⟩
  | unset =>
    refine ⟨.pos, .inl rfl, h.len, h.tlt, h.tinj, h.slt, h.sinj, ?_⟩
    intro c x hx
    obtain ⟨z, z1, z2⟩ := h.carried c x hx
    refine ⟨z, z1, ?_⟩
    rw [Shape.carriedTo_iff] at *
    unfold ListCarried at *
    simpa using z2

/-- **C52.** `pd_isomorphic` decides whether two diagrams have the same shadow, seen from one side or the
other. -/
theorem C52_isomorphic (qs : QSort) (bs : BSearch) (mvA mvB : Nat) (A B : Io.Pd) (hA : Searchable mvA A)
    (hB : Searchable mvB B) :
    ∃ b, isomorphic qs bs (Io.capsNew mvA) (Io.capsNew mvB) A B = .ok b ∧
      (b = true ↔ ∃ τ σ o, SameShadow A.cross B.cross A.edge.length τ σ o) := by
  obtain ⟨qA, hqA⟩ := hA.hash
  obtain ⟨qB, hqB⟩ := hB.hash
  obtain ⟨L, l1, l2, l3, l4⟩ := buildIsos_ok qs qA qB bs mvA mvB hA.tidy hB.tidy hA.room hB.room hqA hqB hA.comps hA.product
  refine ⟨!(cut true L).reverse.isEmpty, by rw [isomorphic, l1 true, ok_bind], ?_⟩
  have he : (!(cut true L).reverse.isEmpty) = true ↔ L ≠ [] := by
    cases L <;> simp [cut]
  rw [he]
  constructor
  · intro h
    obtain ⟨i, hi⟩ := List.exists_mem_of_ne_nil _ h
    obtain ⟨cm, hcm⟩ := Option.ne_none_iff_exists'.mp (l3 i hi).1
    have := (l4 i.comp.map i.emap.perm.map i.emap.orient cm.orient cm.perm.map i.fmap.orient i.fmap.perm.map).mp
      (List.mem_map.mpr ⟨i, hi, by simp [isoData, hcm]⟩)
    exact ⟨_, _, _, this.2.2.shadow⟩
  · rintro ⟨τ, σ, o, h⟩ h0
    obtain ⟨o', ho', h⟩ := shadow_or h
    obtain ⟨κ, os, φ, hm⟩ := maps_of_shadow hA.tidy hB.tidy h
    have := (l4 _ _ _ _ _ _ _).mpr ⟨rfl, by rcases ho' with rfl | rfl <;> simp, hm⟩
    rw [h0] at this
    simp at this

/-- **C52.** So `pd_isomorphic` is an equivalence relation. -/
theorem C52_equivalence (qs : QSort) (bs : BSearch) (mvA mvB mvC : Nat) (A B C : Io.Pd) (hA : Searchable mvA A)
    (hB : Searchable mvB B) (hC : Searchable mvC C) :
    isomorphic qs bs (Io.capsNew mvA) (Io.capsNew mvA) A A = .ok true ∧
    isomorphic qs bs (Io.capsNew mvA) (Io.capsNew mvB) A B = isomorphic qs bs (Io.capsNew mvB) (Io.capsNew mvA) B A ∧
    (isomorphic qs bs (Io.capsNew mvA) (Io.capsNew mvB) A B = .ok true →
      isomorphic qs bs (Io.capsNew mvB) (Io.capsNew mvC) B C = .ok true →
      isomorphic qs bs (Io.capsNew mvA) (Io.capsNew mvC) A C = .ok true) := by
  have slots : ∀ {mv : Nat} {X : Io.Pd}, Searchable mv X → ∀ x ∈ X.cross, ∀ e ∈ [x.e0, x.e1, x.e2, x.e3], e < X.edge.length := by
    intro mv X hX x hx e he
    have h := fun k => cross_at_lt hX.tidy.plane.consistent hx k
    have h0 := h 0
    have h1 := h 1
    have h2 := h 2
    have h3 := h 3
    simp only [List.mem_cons, List.not_mem_nil, or_false] at he
    rcases he with rfl | rfl | rfl | rfl
    exacts [h0, h1, h2, h3]
  have elen : ∀ {mv mv' : Nat} {X Y : Io.Pd}, Searchable mv X → Searchable mv' Y → ∀ {τ σ : Nat → Nat} {o : Or},
      SameShadow X.cross Y.cross X.edge.length τ σ o → X.edge.length = Y.edge.length := by
    intro mv mv' X Y hX hY τ σ o h
    rw [hX.tidy.plane.consistent.count, hY.tidy.plane.consistent.count, h.len]
  have flip : ∀ {mv mv' : Nat} {X Y : Io.Pd}, Searchable mv X → Searchable mv' Y →
      (∃ τ σ o, SameShadow X.cross Y.cross X.edge.length τ σ o) → ∃ τ σ o, SameShadow Y.cross X.cross Y.edge.length τ σ o := by
    rintro mv mv' X Y hX hY ⟨τ, σ, o, h⟩
    obtain ⟨τ', σ', h', -⟩ := h.symm (slots hX)
    rw [elen hX hY h] at h'
    exact ⟨τ', σ', o, h'⟩
  obtain ⟨aa, aa1, aa2⟩ := C52_isomorphic qs bs mvA mvA A A hA hA
  obtain ⟨ab, ab1, ab2⟩ := C52_isomorphic qs bs mvA mvB A B hA hB
  obtain ⟨ba, ba1, ba2⟩ := C52_isomorphic qs bs mvB mvA B A hB hA
  obtain ⟨bc, bc1, bc2⟩ := C52_isomorphic qs bs mvB mvC B C hB hC
  obtain ⟨ac, ac1, ac2⟩ := C52_isomorphic qs bs mvA mvC A C hA hC
  refine ⟨?_, ?_, ?_⟩
  · rw [aa1, aa2.mpr ⟨_, _, _, SameShadow.refl _ _⟩]
  · rw [ab1, ba1]
    congr 1
    rw [Bool.eq_iff_iff, ab2, ba2]
    exact ⟨flip hA hB, flip hB hA⟩
  · rw [ab1, bc1, ac1]
    intro h1 h2
    obtain ⟨τ, σ, o, h⟩ := ab2.mp (Except.ok.inj h1)
    obtain ⟨τ', σ', o', h'⟩ := bc2.mp (Except.ok.inj h2)
    rw [← elen hA hB h] at h'
    rw [ac2.mpr ⟨_, _, _, h.trans h'⟩]

/-- The direction the isomorphism gives an edge agrees with where it takes the ends of the edge. -/
def RightDirection (A B : Io.Pd) (i : Iso) (e : Nat) : Prop :=
  ∃ cm t r s d, i.cmap = some cm ∧ i.emap.perm.map[e]? = some t ∧ A.edge[e]? = some r ∧ B.edge[t]? = some s ∧
    i.emap.orient[e]? = some d ∧
    ((d = .pos ∧ cm.perm.map[r.tail]? = some s.tail ∧ cm.perm.map[r.head]? = some s.head) ∨
      (d = .neg ∧ cm.perm.map[r.tail]? = some s.head ∧ cm.perm.map[r.head]? = some s.tail))

/-- **C52** (directions). On components with at least three edges every isomorphism that is listed keeps or
reverses edges as its edge map says. Missing: components with two edges, where this is false. -/
theorem C52_directions_partial (qs : QSort) (bs : BSearch) (mvA mvB : Nat) (A B : Io.Pd) (hA : Searchable mvA A)
    (hB : Searchable mvB B) :
    ∃ L, buildIsos qs bs false (Io.capsNew mvA) (Io.capsNew mvB) A B = .ok L ∧
      ∀ i ∈ L, ∀ k ∈ A.comp, 3 ≤ k.edge.length → ∀ e ∈ k.edge, RightDirection A B i e := by
  obtain ⟨L, l1, l2, -⟩ := C52_all_isomorphisms qs bs mvA mvB A B hA hB
  refine ⟨L, l1, ?_⟩
  intro i hi k hk h3 e he
  obtain ⟨o, -, cm, c1, -, -, c4⟩ := l2 i hi
  obtain ⟨t, r, s, d, h1, h2, h3, h4, h5⟩ := c4.direction hA.tidy hB.tidy hk h3 he
  exact ⟨cm, t, r, s, d, c1, h1, h2, h3, h4, h5⟩

/-! ### The Hopf link -/

/-- The Hopf link of C51 with its hash. -/
def isoHopf : Io.Pd := { okHopf with hash := "AgQEAgICAgICAgDqAAAAAAAAAAAAAAA".toList }

theorem IsoSearch.isoHopf_searchable : Searchable 2 isoHopf := by
  obtain ⟨cross', edge', comps, faces, h1, h2, -⟩ :=
    C51_regenerated_ok insQSort insQSort 2 hopf2 hopf2Edge hopf2Edge hopf2_plane
      (Or.inl ⟨rfl, _, List.mem_cons_self, by decide⟩) (by decide) (by decide)
  have h3 : regenerate insQSort (Io.capsNew 2).edges (Io.capsNew 2).comps (Io.capsNew 2).faces hopf2 hopf2Edge =
      .ok (okHopf.cross, okHopf.edge, okHopf.comp, okHopf.face) := by decide +kernel
  rw [h3] at h1
  cases h1
  exact ⟨h2, by decide, ⟨insQSort, by decide +kernel⟩, by decide, by decide⟩

example : isomorphic insQSort linearBSearch (Io.capsNew 2) (Io.capsNew 2) isoHopf isoHopf = .ok true :=
  (C52_equivalence insQSort linearBSearch 2 2 2 isoHopf isoHopf isoHopf isoHopf_searchable isoHopf_searchable
    isoHopf_searchable).1

/-- Every edge stays where it is, and every direction is said to be reversed. -/
def turnedHopf : Iso := ⟨⟨[0, 1], 0⟩, ⟨⟨[0, 1, 2, 3], 0⟩, [.neg, .neg, .neg, .neg]⟩, some ⟨⟨[0, 1], 0⟩, .pos⟩, ⟨⟨[0, 1, 2, 3], 0⟩, .pos⟩⟩

theorem IsoSearch.turnedHopf_maps : IsoMaps isoHopf isoHopf [0, 1] [0, 1, 2, 3] [.neg, .neg, .neg, .neg] [0, 1] .pos
    [0, 1, 2, 3] .pos := by
  refine ⟨rfl, rfl, rfl, by decide, by decide, rfl, by decide, by decide, ?_, ?_, ?_⟩
  · intro c k hk
    have hc := (List.getElem?_eq_some_iff.mp hk).1
    have : c < 2 := hc
    interval_cases c
    · cases hk
      exact ⟨0, _, .neg, rfl, rfl, by simp, ⟨1, by decide⟩, by decide⟩
    · cases hk
      exact ⟨1, _, .neg, rfl, rfl, by simp, ⟨1, by decide⟩, by decide⟩
  · intro c x hx
    have hc : c < 2 := (List.getElem?_eq_some_iff.mp hx).1
    interval_cases c
    · cases hx
      exact ⟨0, _, rfl, rfl, by rw [Shape.carriedTo_iff]; exact ⟨0, by decide⟩⟩
    · cases hx
      exact ⟨1, _, rfl, rfl, by rw [Shape.carriedTo_iff]; exact ⟨0, by decide⟩⟩
  · intro c x hx
    have hc : c < 4 := (List.getElem?_eq_some_iff.mp hx).1
    interval_cases c <;> cases hx
    · exact ⟨0, _, rfl, rfl, ⟨0, by decide⟩⟩
    · exact ⟨1, _, rfl, rfl, ⟨0, by decide⟩⟩
    · exact ⟨2, _, rfl, rfl, ⟨0, by decide⟩⟩
    · exact ⟨3, _, rfl, rfl, ⟨0, by decide⟩⟩

/-- On components with two edges wrong directions are listed: from the Hopf link to itself, one of the
isomorphisms leaves every crossing and every edge where it is and reverses all edges. -/
theorem C52_wrong_direction_listed (qs : QSort) (bs : BSearch) :
    ∃ L i, buildIsos qs bs false (Io.capsNew 2) (Io.capsNew 2) isoHopf isoHopf = .ok L ∧ i ∈ L ∧
      ∀ e, e < 4 → ¬ RightDirection isoHopf isoHopf i e := by
  obtain ⟨L, l1, -, l3, -⟩ := C52_all_isomorphisms qs bs 2 2 isoHopf isoHopf isoHopf_searchable isoHopf_searchable
  obtain ⟨i, hi, h1, h2, h3, -, -, cm, h4, h5, -⟩ := l3 _ _ _ _ .pos _ (.inl rfl) turnedHopf_maps
  refine ⟨L, i, l1, hi, ?_⟩
  intro e he
  rintro ⟨cm', t, r, s, d, c1, c2, c3, c4, c5, c6⟩
  rw [h4] at c1
  cases c1
  rw [h5] at c6
  rw [h2] at c2
  rw [h3] at c5
  interval_cases e <;> cases c2 <;> cases c3 <;> cases c4 <;> cases c5 <;> revert c6 <;> decide

/-! ### Checking an isomorphism -/

/-- **C53.** `pd_iso_consistent` accepts exactly the isomorphisms whose maps follow components around in one
direction and carry crossings to crossings and faces to faces, each in cyclic order. `pd_iso_ok` is what it
calls first. -/
theorem C53_iso_consistent (qs : QSort) (mvA mvB : Nat) (A B : Io.Pd) (i : Iso) (cm : OMap) (ok : Bool)
    (hA : Tidy A.cross A.edge A.comp A.face) (hB : Tidy B.cross B.edge B.comp B.face)
    (hmA : A.cross.length ≤ mvA) (hmB : B.cross.length ≤ mvB) (hc : i.cmap = some cm)
    (hos : i.emap.orient.length = i.emap.perm.map.length) (h1 : B.comp.length = A.comp.length)
    (h2 : B.cross.length = A.cross.length) (hok : isoOk i = .ok ok) :
    ∃ b, isoConsistent qs (Io.capsNew mvA) (Io.capsNew mvB) A B i = .ok b ∧
      (b = true ↔ ok = true ∧ IsoMaps A B i.comp.map i.emap.perm.map i.emap.orient
        cm.perm.map (if cm.orient = .pos then .pos else .neg)
        i.fmap.perm.map (if i.fmap.orient = .pos then .pos else .neg)) :=
  isoConsistent_ok qs mvA mvB hA hB hmA hmB hc hos h1 h2 hok

/-- A reflection of the Hopf link that exchanges the crossings. -/
example : isoConsistent insQSort (Io.capsNew 2) (Io.capsNew 2) isoHopf isoHopf
    ⟨⟨[0, 1], 0⟩, ⟨⟨[0, 1, 2, 3], 0⟩, [.pos, .pos, .pos, .pos]⟩, some ⟨⟨[1, 0], 1⟩, .neg⟩, ⟨⟨[0, 1, 2, 3], 0⟩, .neg⟩⟩ = .ok true ∧
  isoConsistent insQSort (Io.capsNew 2) (Io.capsNew 2) isoHopf isoHopf
    ⟨⟨[0, 1], 0⟩, ⟨⟨[0, 1, 2, 3], 0⟩, [.pos, .pos, .pos, .pos]⟩, some ⟨⟨[1, 0], 1⟩, .pos⟩, ⟨⟨[0, 1, 2, 3], 0⟩, .pos⟩⟩ = .ok false ∧
  isoConsistent insQSort (Io.capsNew 2) (Io.capsNew 2) isoHopf isoHopf
    ⟨⟨[1, 0], 1⟩, ⟨⟨[0, 1, 2, 3], 0⟩, [.pos, .pos, .pos, .pos]⟩, some ⟨⟨[0, 1], 0⟩, .pos⟩, ⟨⟨[0, 1, 2, 3], 0⟩, .pos⟩⟩ = .ok false := by
  decide +kernel

/-- Orientations that differ at crossings and faces are accepted, and an orientation that is not set is read
as negative. -/
theorem C53_mixed_orientation_accepted :
    isoConsistent insQSort (Io.capsNew 2) (Io.capsNew 2) isoHopf isoHopf
      ⟨⟨[0, 1], 0⟩, ⟨⟨[0, 1, 2, 3], 0⟩, [.pos, .pos, .pos, .pos]⟩, some ⟨⟨[0, 1], 0⟩, .pos⟩, ⟨⟨[0, 1, 2, 3], 0⟩, .neg⟩⟩ = .ok true ∧
    isoConsistent insQSort (Io.capsNew 2) (Io.capsNew 2) isoHopf isoHopf
      ⟨⟨[0, 1], 0⟩, ⟨⟨[0, 1, 2, 3], 0⟩, [.pos, .pos, .pos, .pos]⟩, some ⟨⟨[1, 0], 1⟩, .unset⟩, ⟨⟨[0, 1, 2, 3], 0⟩, .pos⟩⟩ = .ok true ∧
    isoConsistent insQSort (Io.capsNew 2) (Io.capsNew 2) isoHopf isoHopf turnedHopf = .ok true := by
  decide +kernel

end Plc
