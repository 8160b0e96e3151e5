import Verif.Proofs.Store
import Verif.Props.Pack
import Verif.Spec.Examples

/-! # C33 and C34: the store of diagrams

C33. In a mode that looks for equivalent diagrams, a store never holds two equivalent ones, and never
loses one. C34. Iterating visits every element once, in order.

The comparison (`pd_isomorphic` or `pd_diagram_isotopic`) enters as a test which decides some
equivalence relation `E` preserved by packing and unpacking and respected by the hash. -/

namespace Plc

open Plc.Store List

variable {Pd Packed : Type}

namespace Store

theorem mem_entries {s : Stor Packed} {h : Hash} {u : Nat} {p : Packed} :
    (h, u, p) ∈ entries s ↔ ∃ b, (h, b) ∈ s.arr ∧ (u, p) ∈ b := by
  unfold entries
  rw [List.mem_flatMap]
  constructor
  · rintro ⟨⟨h', b⟩, h1, h2⟩
    rw [List.mem_map] at h2
    obtain ⟨⟨u', p'⟩, h3, h4⟩ := h2
    cases h4
    exact ⟨b, h1, h3⟩
  · rintro ⟨b, h1, h2⟩
    exact ⟨(h, b), h1, List.mem_map.mpr ⟨(u, p), h2, rfl⟩⟩

/-- Entries come in order of hash, then uid. -/
def InOrder (e f : Hash × Nat × Packed) : Prop := e.1 < f.1 ∨ (e.1 = f.1 ∧ e.2.1 < f.2.1)

theorem pairwise_entries {s : Stor Packed} {R : Hash × Nat × Packed → Hash × Nat × Packed → Prop}
    (h1 : s.arr.Pairwise (fun x y => ∀ a ∈ x.2, ∀ b ∈ y.2, R (x.1, a.1, a.2) (y.1, b.1, b.2)))
    (h2 : ∀ x ∈ s.arr, x.2.Pairwise (fun a b => R (x.1, a.1, a.2) (x.1, b.1, b.2))) :
    (entries s).Pairwise R := by
  unfold entries
  rw [List.pairwise_flatMap]
  constructor
  · intro x hx
    rw [List.pairwise_map]
    exact h2 x hx
  · refine h1.imp ?_
    intro x y h e he f hf
    rw [List.mem_map] at he hf
    obtain ⟨a, a1, rfl⟩ := he
    obtain ⟨b, b1, rfl⟩ := hf
    exact h a a1 b b1

theorem Inv.inOrder {k : Kit Pd Packed} {m : Mode} {Good : Pd → Prop} {E : Pd → Pd → Prop} {s : Stor Packed}
    {H : List (Pd × Nat)} (hI : Inv k m Good E s H) : (entries s).Pairwise InOrder := by
  apply pairwise_entries
  · exact hI.sorted.imp (fun h _ _ _ _ => Or.inl h)
  · intro x hx
    obtain ⟨_, h2⟩ := hI.uids x hx
    have : (x.2.map Prod.fst).Pairwise (· < ·) := by
      rw [h2]
      exact List.pairwise_lt_range'
    rw [List.pairwise_map] at this
    exact this.imp (fun h => Or.inr ⟨rfl, h⟩)

end Store

/-- C33, in a mode which looks for equivalent diagrams. Start with an empty store and insert the diagrams
of `l`. No insertion faults. At the end the entries are in strict order of (hash, uid), so no pair
occurs twice; no two of them hold equivalent diagrams; every diagram of `l` is equivalent to
the entry with its hash and the uid it was given; every entry is one of the diagrams of `l`, packed;
and the count is the number of entries (modulo 2^32, the range of the counter). -/
theorem C33_no_duplicates (k : Kit Pd Packed) (m : Mode) (hm : m ≠ .none) (Good : Pd → Prop) (E : Pd → Pd → Prop)
    (hF : Faithful k Good E) (hd : Decides (if m = .isomorphism then k.isomorphic else k.isotopic) Good E)
    (l : List Pd) (hl : ∀ pd ∈ l, Good pd) :
    ∃ s us, addAll k m newStor l = .ok (s, us) ∧ us.length = l.length ∧
      (entries s).Pairwise InOrder ∧
      (∀ e ∈ entries s, ∃ a, k.unpack e.2.2 = .ok a ∧ Good a ∧ k.hash a = e.1) ∧
      (entries s).Pairwise (fun e f => ∀ a c, k.unpack e.2.2 = .ok a → k.unpack f.2.2 = .ok c → ¬ E a c) ∧
      (∀ (i : Nat) (pd : Pd) (u : Nat), l[i]? = some pd → us[i]? = some u →
        ∃ p a, (k.hash pd, u, p) ∈ entries s ∧ k.unpack p = .ok a ∧ E a pd) ∧
      (∀ e ∈ entries s, ∃ (i : Nat) (pd : Pd), l[i]? = some pd ∧ us[i]? = some e.2.1 ∧ k.hash pd = e.1 ∧
        k.pack pd = .ok e.2.2) ∧
      nelts (some s) = (entries s).length % 2 ^ 32 := by
  have hd' : m ≠ .none → Decides (same k m) Good E := by
    intro _
    cases m with
    | none => exact absurd rfl hm
    | isomorphism => exact hd
    | isotopy => exact hd
  obtain ⟨s, us, h1, h2, hI⟩ := addAll_ok hF hd' (l := l) (inv_new (Packed := Packed)) hl
  rw [List.nil_append] at hI
  refine ⟨s, us, h1, h2, hI.inOrder, ?_, ?_, ?_, ?_, hI.count⟩
  · rintro ⟨h, u, p⟩ he
    obtain ⟨b, b1, b2⟩ := mem_entries.mp he
    exact hI.good _ b1 _ b2
  · apply pairwise_entries
    · refine hI.sorted.imp_of_mem ?_
      intro x y hx hy hlt a ha b hb c d hc hd he
      obtain ⟨c', c1, c2, c3⟩ := hI.good x hx a ha
      obtain ⟨d', d1, d2, d3⟩ := hI.good y hy b hb
      simp only at hc hd
      rw [c1] at hc
      rw [d1] at hd
      cases hc
      cases hd
      have := hF.hash _ _ c2 d2 he
      rw [c3, d3] at this
      rw [this] at hlt
      exact lt_irrefl _ hlt
    · exact hI.distinct hm
  · intro i pd u hi hu
    have hz : (pd, u) ∈ l.zip us := by
      rw [List.mem_iff_getElem?]
      exact ⟨i, by rw [List.getElem?_zip_eq_some]; exact ⟨hi, hu⟩⟩
    obtain ⟨b, p, a, a1, a2, a3, a4, _⟩ := hI.kept _ hz
    exact ⟨p, a, mem_entries.mpr ⟨b, a1, a2⟩, a3, a4⟩
  · rintro ⟨h, u, p⟩ he
    obtain ⟨b, b1, b2⟩ := mem_entries.mp he
    obtain ⟨⟨pd, v⟩, hh, h3, h4, h5⟩ := hI.origin _ b1 _ b2
    obtain ⟨i, hi⟩ := List.mem_iff_getElem?.mp hh
    rw [List.getElem?_zip_eq_some] at hi
    simp only at h3
    subst h3
    exact ⟨i, pd, hi.1, hi.2, h4, h5⟩

/-- C33: two inserted diagrams are given the same hash and uid exactly when they are equivalent. -/
theorem C33_same_uid (k : Kit Pd Packed) (m : Mode) (hm : m ≠ .none) (Good : Pd → Prop) (E : Pd → Pd → Prop)
    (hF : Faithful k Good E) (hd : Decides (if m = .isomorphism then k.isomorphic else k.isotopic) Good E)
    (l : List Pd) (hl : ∀ pd ∈ l, Good pd) :
    ∃ s us, addAll k m newStor l = .ok (s, us) ∧
      ∀ (i j : Nat) (a b : Pd) (u v : Nat), l[i]? = some a → l[j]? = some b → us[i]? = some u → us[j]? = some v →
        ((k.hash a, u) = (k.hash b, v) ↔ E a b) := by
  obtain ⟨s, us, h1, h2, h3, h4, h5, h6, _⟩ := C33_no_duplicates k m hm Good E hF hd l hl
  refine ⟨s, us, h1, ?_⟩
  intro i j a b u v ha hb hu hv
  have ga := hl a (List.mem_of_getElem? ha)
  have gb := hl b (List.mem_of_getElem? hb)
  obtain ⟨p, a', p1, p2, p3⟩ := h6 i a u ha hu
  obtain ⟨q, b', q1, q2, q3⟩ := h6 j b v hb hv
  obtain ⟨a'', a1, a2, _⟩ := h4 _ p1
  obtain ⟨b'', b1, b2, _⟩ := h4 _ q1
  simp only at a1 b1
  rw [p2] at a1
  rw [q2] at b1
  cases a1
  cases b1
  constructor
  · intro he
    simp only [Prod.mk.injEq] at he
    obtain ⟨e1, e2⟩ := he
    have hpq : p = q := by
      obtain ⟨i', hi'⟩ := List.mem_iff_getElem.mp p1
      obtain ⟨j', hj'⟩ := List.mem_iff_getElem.mp q1
      obtain ⟨il, ie⟩ := hi'
      obtain ⟨jl, je⟩ := hj'
      have hij : i' = j' := by
        by_contra hne
        have hor : ∀ x y, x < y → ∀ (hx : x < (entries s).length) (hy : y < (entries s).length),
            InOrder (entries s)[x] (entries s)[y] := fun x y hxy hx hy =>
          List.pairwise_iff_getElem.mp h3 x y hx hy hxy
        rcases Nat.lt_or_gt_of_ne hne with hlt | hlt
        · rcases hor _ _ hlt il jl with h | ⟨_, h⟩
          · rw [ie, je, e1] at h; exact lt_irrefl _ h
          · rw [ie, je, e2] at h; exact lt_irrefl _ h
        · rcases hor _ _ hlt jl il with h | ⟨_, h⟩
          · rw [ie, je, e1] at h; exact lt_irrefl _ h
          · rw [ie, je, e2] at h; exact lt_irrefl _ h
      subst hij
      rw [ie] at je
      simp only [Prod.mk.injEq] at je
      exact je.2.2
    subst hpq
    rw [p2] at q2
    cases q2
    exact hF.trans a a' b ga a2 gb (hF.symm _ _ a2 ga p3) q3
  · intro he
    have hab : E a' b' := hF.trans a' a b' a2 ga b2 p3 (hF.trans a b b' ga gb b2 he (hF.symm _ _ b2 gb q3))
    have hh := hF.hash a b ga gb he
    by_contra hne
    rw [hh] at p1 hne
    obtain ⟨i', il, ie⟩ := List.mem_iff_getElem.mp p1
    obtain ⟨j', jl, je⟩ := List.mem_iff_getElem.mp q1
    rcases Nat.lt_trichotomy i' j' with hlt | hlt | hlt
    · exact List.pairwise_iff_getElem.mp h5 i' j' il jl hlt a' b' (by rw [ie]; exact p2) (by rw [je]; exact q2) hab
    · subst hlt
      rw [ie] at je
      simp only [Prod.mk.injEq] at je
      exact hne (by rw [je.2.1])
    · exact List.pairwise_iff_getElem.mp h5 j' i' jl il hlt b' a' (by rw [je]; exact q2) (by rw [ie]; exact p2)
        (hF.symm _ _ a2 b2 hab)

/-- C33, in the mode `NONE`: every insertion adds an entry, with a (hash, uid) pair of its own. -/
theorem C33_keep_all (k : Kit Pd Packed) (Good : Pd → Prop) (E : Pd → Pd → Prop)
    (hF : Faithful k Good E) (l : List Pd) (hl : ∀ pd ∈ l, Good pd) :
    ∃ s us, addAll k .none newStor l = .ok (s, us) ∧ us.length = l.length ∧
      (entries s).Pairwise InOrder ∧ (entries s).length = l.length ∧
      (∀ (i : Nat) (pd : Pd) (u : Nat), l[i]? = some pd → us[i]? = some u →
        ∃ p, (k.hash pd, u, p) ∈ entries s ∧ k.pack pd = .ok p) ∧
      ((l.zip us).map (fun x => (k.hash x.1, x.2))).Nodup ∧
      nelts (some s) = l.length % 2 ^ 32 := by
  obtain ⟨s, us, h1, h2, hI⟩ := addAll_ok hF (fun h => absurd rfl h) (l := l) (m := .none)
    (inv_new (Packed := Packed)) hl
  rw [List.nil_append] at hI
  have hp := hI.all rfl
  have hlen : (entries s).length = l.length := by
    have := hp.length_eq
    simp only [List.length_map, List.length_zip] at this
    change _ = (entries s).length at this
    omega
  have hord := hI.inOrder
  refine ⟨s, us, h1, h2, hord, hlen, ?_, ?_, ?_⟩
  · intro i pd u hi hu
    have hz : (pd, u) ∈ l.zip us := by
      rw [List.mem_iff_getElem?]
      exact ⟨i, by rw [List.getElem?_zip_eq_some]; exact ⟨hi, hu⟩⟩
    obtain ⟨b, p, a, a1, a2, a3, a4, a5⟩ := hI.kept _ hz
    exact ⟨p, mem_entries.mpr ⟨b, a1, a2⟩, a5 rfl⟩
  · rw [hp.nodup_iff]
    change ((entries s).map _).Nodup
    unfold List.Nodup
    rw [List.pairwise_map]
    refine hord.imp ?_
    intro e f h heq
    simp only [Prod.mk.injEq] at heq
    rcases h with h | ⟨_, h⟩
    · rw [heq.1] at h; exact lt_irrefl _ h
    · omega
  · have := hI.count
    change s.nelts = _
    rw [this, ← hlen]
    rfl

theorem Store.search_none {Iso : Type} {k : Kit Pd Packed} {isos : Pd → Pd → Res (List Iso)} {s : Stor Packed} {pd : Pd}
    (h : jslg s.arr (k.hash pd) = none) : search k isos s pd = .ok none := by
  unfold search
  rw [h]

theorem Store.search_some {Iso : Type} {k : Kit Pd Packed} {isos : Pd → Pd → Res (List Iso)} {s : Stor Packed} {pd : Pd}
    {b : Bucket Packed} (h : jslg s.arr (k.hash pd) = some b) (hb : b ≠ []) :
    search k isos s pd = searchLoop k isos pd b := by
  unfold search
  rw [h]
  cases b with
  | nil => exact absurd rfl hb
  | cons x b => rfl

/-- C33: `pd_search_pdstor_by_isomorphism` finds the stored diagram equivalent to the given one, with its
uid, exactly when there is one. `isos` stands for `pd_build_isos`. -/
theorem C33_search {Iso : Type} (k : Kit Pd Packed) (m : Mode) (hm : m ≠ .none) (Good : Pd → Prop) (E : Pd → Pd → Prop)
    (hF : Faithful k Good E) (hd : Decides (if m = .isomorphism then k.isomorphic else k.isotopic) Good E)
    (isos : Pd → Pd → Res (List Iso))
    (hisos : ∀ a b, Good a → Good b → ∃ l, isos a b = .ok l ∧ (l ≠ [] ↔ E b a))
    (l : List Pd) (hl : ∀ pd ∈ l, Good pd) (pd : Pd) (hg : Good pd) :
    ∃ s us r, addAll k m newStor l = .ok (s, us) ∧ search k isos s pd = .ok r ∧
      (r = none ↔ ∀ x ∈ l, ¬ E x pd) ∧
      (∀ a u is, r = some (a, u, is) → E a pd ∧ is ≠ [] ∧ isos pd a = .ok is ∧
        ∃ p, (k.hash pd, u, p) ∈ entries s ∧ k.unpack p = .ok a) := by
  have hd' : m ≠ .none → Decides (same k m) Good E := by
    intro _
    cases m with
    | none => exact absurd rfl hm
    | isomorphism => exact hd
    | isotopy => exact hd
  obtain ⟨s, us, h1, h2, hI⟩ := addAll_ok hF hd' (l := l) (inv_new (Packed := Packed)) hl
  rw [List.nil_append] at hI
  have hzip : ∀ x ∈ l, ∃ u, (x, u) ∈ l.zip us := by
    intro x hx
    obtain ⟨i, hi⟩ := List.mem_iff_getElem?.mp hx
    have hil : i < l.length := (List.getElem?_eq_some_iff.mp hi).1
    refine ⟨us[i]'(by omega), List.mem_iff_getElem?.mpr ⟨i, ?_⟩⟩
    rw [List.getElem?_zip_eq_some]
    exact ⟨hi, by simp⟩
  refine ⟨s, us, ?_⟩
  cases hj : jslg s.arr (k.hash pd) with
  | none =>
    refine ⟨none, h1, search_none hj, ?_, by simp⟩
    simp only [true_iff]
    intro x hx he
    obtain ⟨u, hu⟩ := hzip x hx
    obtain ⟨b, _, _, b1, _⟩ := hI.kept _ hu
    have hh := hF.hash x pd (hl x hx) hg he
    simp only [hh] at b1
    exact jslg_none.mp hj b b1
  | some b =>
    have hb := (jslg_iff hI.sorted).mp hj
    obtain ⟨hne, _⟩ := hI.uids _ hb
    have hgood : ∀ y ∈ b, ∃ a, k.unpack y.2 = .ok a ∧ Good a := by
      intro y hy
      obtain ⟨a, a1, a2, _⟩ := hI.good _ hb y hy
      exact ⟨a, a1, a2⟩
    rw [search_some hj hne]
    rcases searchLoop_ok (E := E) (fun a ha => hisos pd a hg ha) hgood with
      ⟨x, x1, a, is, x2, x3, x4, x5, x6⟩ | ⟨x1, x2⟩
    · refine ⟨_, h1, x6, ?_, ?_⟩
      · simp only [reduceCtorEq, false_iff, not_forall, not_not]
        obtain ⟨h, o1, _, _, o4⟩ := hI.origin _ hb _ x1
        have hhl : h.1 ∈ l := (List.of_mem_zip o1).1
        refine ⟨h.1, hhl, ?_⟩
        obtain ⟨p', a', p1, p2, p3, p4⟩ := hF.pack h.1 (hl _ hhl)
        rw [o4] at p1
        cases p1
        rw [x2] at p2
        cases p2
        exact hF.trans _ _ _ (hl _ hhl) p3 hg (hF.symm _ _ p3 (hl _ hhl) p4) x3
      · intro a' u' is' he
        simp only [Option.some.injEq, Prod.mk.injEq] at he
        obtain ⟨rfl, rfl, rfl⟩ := he
        exact ⟨x3, x5, x4, x.2, mem_entries.mpr ⟨b, hb, x1⟩, x2⟩
    · refine ⟨_, h1, x2, ?_, by simp⟩
      simp only [true_iff]
      intro y hy he
      obtain ⟨u, hu⟩ := hzip y hy
      obtain ⟨b', p, a, b1, b2, b3, b4, _⟩ := hI.kept _ hu
      have hh := hF.hash y pd (hl y hy) hg he
      simp only [hh] at b1
      have := (jslg_iff hI.sorted).mpr b1
      rw [hj] at this
      cases this
      obtain ⟨a', a1, a2⟩ := hgood _ b2
      simp only at a1
      rw [b3] at a1
      cases a1
      exact x1 _ b2 a b3 (hF.trans _ _ _ a2 (hl y hy) hg b4 he)

/-- C33: `pd_stor_stats` counts the hashes and the elements (as 32-bit numbers). -/
theorem C33_stats (s : Stor Packed) :
    stats s = (s.arr.length % 2 ^ 32, (entries s).length % 2 ^ 32) := by
  have key : ∀ (l : List (Hash × Bucket Packed)) (c : Nat × Nat), c.1 < 2 ^ 32 → c.2 < 2 ^ 32 →
      l.foldl (fun c hb => ((c.1 + 1) % 2 ^ 32, (c.2 + hb.2.length) % 2 ^ 32)) c =
      ((c.1 + l.length) % 2 ^ 32, (c.2 + (flat l).length) % 2 ^ 32) := by
    intro l
    induction l with
    | nil =>
      intro c h1 h2
      simp only [List.foldl_nil, List.length_nil, flat, List.flatMap_nil, Nat.add_zero]
      rw [Nat.mod_eq_of_lt h1, Nat.mod_eq_of_lt h2]
    | cons x l ih =>
      intro c h1 h2
      rw [List.foldl_cons, ih _ (Nat.mod_lt _ (by decide)) (Nat.mod_lt _ (by decide))]
      simp only [List.length_cons, flat, List.flatMap_cons, List.length_append, List.length_map]
      refine Prod.ext ?_ ?_
      · simp only []; omega
      · simp only []; omega
  have := key s.arr (0, 0) (by decide) (by decide)
  simp only [Nat.zero_add] at this
  exact this

/-! ### Iteration -/

/-- What is known of a store after insertions. -/
theorem Store.walk (k : Kit Pd Packed) (m : Mode) (Good : Pd → Prop) (E : Pd → Pd → Prop)
    (hF : Faithful k Good E)
    (hd : m ≠ .none → Decides (if m = .isomorphism then k.isomorphic else k.isotopic) Good E)
    (l : List Pd) (hl : ∀ pd ∈ l, Good pd ∧ k.hash pd ≠ []) (fuel : Nat) (hf : l.length ≤ fuel) :
    ∃ s us L, addAll k m newStor l = .ok (s, us) ∧ visit k fuel s = .ok (s, L) ∧
      Inv k m Good E s (l.zip us) ∧
      List.Forall₂ (fun e x => k.unpack e.2.2 = .ok x.1 ∧ x.2 = e.2.1) (entries s) L ∧
      s.reset = s ∧ (entries s).length ≤ l.length := by
  have hd' : m ≠ .none → Decides (same k m) Good E := by
    intro hm
    have hd := hd hm
    cases m with
    | none => exact absurd rfl hm
    | isomorphism => exact hd
    | isotopy => exact hd
  obtain ⟨s, us, h1, h2, hI⟩ := addAll_ok hF hd' (l := l) (inv_new (Packed := Packed)) (fun x hx => (hl x hx).1)
  rw [List.nil_append] at hI
  have hW : WF k s := hI.wf (by
    intro x hx
    obtain ⟨hne, _⟩ := hI.uids x hx
    obtain ⟨y, hy⟩ := List.exists_mem_of_ne_nil _ hne
    obtain ⟨h, o1, _, o3, _⟩ := hI.origin x hx y hy
    rw [← o3]
    exact (hl _ (List.of_mem_zip o1).1).2)
  -- no more entries than insertions
  have hle : (entries s).length ≤ l.length := by
    have hsub : (entries s).map (fun e => (e.1, e.2.1)) ⊆ (l.zip us).map (fun h => (k.hash h.1, h.2)) := by
      intro x hx
      rw [List.mem_map] at hx
      obtain ⟨⟨h, u, p⟩, e1, rfl⟩ := hx
      obtain ⟨b, b1, b2⟩ := mem_entries.mp e1
      obtain ⟨y, o1, o2, o3, _⟩ := hI.origin _ b1 _ b2
      rw [List.mem_map]
      exact ⟨y, o1, by rw [o2, o3]⟩
    have hnd : ((entries s).map (fun e => (e.1, e.2.1))).Nodup := by
      unfold List.Nodup
      rw [List.pairwise_map]
      refine hI.inOrder.imp ?_
      intro e f h heq
      simp only [Prod.mk.injEq] at heq
      rcases h with h | ⟨_, h⟩
      · rw [heq.1] at h; exact lt_irrefl _ h
      · omega
    have := (List.subperm_of_subset hnd hsub).length_le
    simp only [List.length_map, List.length_zip] at this
    omega
  obtain ⟨L, l1, l2⟩ := visit_ok hW (fuel := fuel) (by omega)
  have hreset : s.reset = s := by
    have key : ∀ (l : List Pd) (s0 s : Stor Packed) us, s0.reset = s0 → addAll k m s0 l = .ok (s, us) → s.reset = s := by
      intro l
      induction l with
      | nil =>
        intro s0 s us h0 h
        simp only [addAll, Except.ok.injEq, Prod.mk.injEq] at h
        rw [← h.1]; exact h0
      | cons pd l ih =>
        intro s0 s us h0 h
        unfold addAll at h
        obtain ⟨⟨s1, u⟩, a1, a2⟩ := bind_ok_iff.mp h
        obtain ⟨⟨s2, us'⟩, b1, b2⟩ := bind_ok_iff.mp a2
        simp only [Except.ok.injEq, Prod.mk.injEq] at b2
        rw [← b2.1]
        refine ih s1 s2 us' ?_ b1
        unfold addto at a1
        obtain ⟨r, r1, r2⟩ := bind_ok_iff.mp a1
        cases r with
        | inl u' =>
          simp only [Except.ok.injEq, Prod.mk.injEq] at r2
          rw [← r2.1]; rfl
        | inr u' =>
          simp only [] at r2
          obtain ⟨p, p1, p2⟩ := bind_ok_iff.mp r2
          split at p2
          · cases p2
          · simp only [Except.ok.injEq, Prod.mk.injEq] at p2
            rw [← p2.1]; rfl
    exact key l newStor s us rfl h1
  rw [hreset] at l1
  exact ⟨s, us, L, h1, l1, hI, l2, hreset, hle⟩

/-- C34: after any insertions (in any mode), the loop over `pd_stor_firstelt` and `pd_stor_nextelt` ends, and
visits the entries of the store, each once, in order of hash and uid, unpacked and with their uid; the
store is unchanged. Every hash must have at least one character. -/
theorem C34_iteration (k : Kit Pd Packed) (m : Mode) (Good : Pd → Prop) (E : Pd → Pd → Prop)
    (hF : Faithful k Good E)
    (hd : m ≠ .none → Decides (if m = .isomorphism then k.isomorphic else k.isotopic) Good E)
    (l : List Pd) (hl : ∀ pd ∈ l, Good pd ∧ k.hash pd ≠ []) (fuel : Nat) (hf : l.length ≤ fuel) :
    ∃ s us L, addAll k m newStor l = .ok (s, us) ∧ visit k fuel s = .ok (s, L) ∧
      (entries s).Pairwise InOrder ∧
      List.Forall₂ (fun e x => k.unpack e.2.2 = .ok x.1 ∧ x.2 = e.2.1) (entries s) L := by
  obtain ⟨s, us, L, h1, h2, h3, h4, -⟩ := Store.walk k m Good E hF hd l hl fuel hf
  exact ⟨s, us, L, h1, h2, h3.inOrder, h4⟩

/-- C34, the limits of the protocol. Asking for the next element of a store on which iteration was not
started, or has reached the end, or has been interrupted by an insertion, stops the program. -/
theorem C34_next_needs_first (k : Kit Pd Packed) (s : Stor Packed) :
    nextelt k s.reset = .error .die ∧
    (∀ m pd s' u, addto k m s pd = .ok (s', u) → nextelt k s' = .error .die) := by
  refine ⟨rfl, ?_⟩
  intro m pd s' u h
  unfold addto at h
  obtain ⟨r, r1, r2⟩ := bind_ok_iff.mp h
  cases r with
  | inl u' =>
    simp only [Except.ok.injEq, Prod.mk.injEq] at r2
    rw [← r2.1]; rfl
  | inr u' =>
    simp only [] at r2
    obtain ⟨p, p1, p2⟩ := bind_ok_iff.mp r2
    split at p2
    · cases p2
    · simp only [Except.ok.injEq, Prod.mk.injEq] at p2
      rw [← p2.1]; rfl

/-! ### A case which meets the hypotheses -/

/-- Numbers as diagrams, equivalent when congruent modulo 6, with the residue modulo 3 as hash;
unpacking gives the smallest equivalent number. -/
def toyKit : Kit Nat Nat where
  hash n := [n % 3 + 1]
  pack n := .ok n
  unpack n := .ok (n % 6)
  isomorphic a b := .ok (a % 6 == b % 6)
  isotopic a b := .ok (a % 6 == b % 6)

theorem Store.toy_faithful : Faithful toyKit (fun _ => True) (fun a b => a % 6 = b % 6) where
  refl _ _ := rfl
  symm _ _ _ _ h := h.symm
  trans _ _ _ _ _ _ h g := h.trans g
  hash a b _ _ h := by simp only [toyKit]; congr 2; omega
  pack n _ := ⟨n, n % 6, rfl, rfl, trivial, by omega⟩

example : Decides toyKit.isomorphic (fun _ => True) (fun a b => a % 6 = b % 6) :=
  fun a b _ _ => ⟨_, rfl, by simp⟩

example : addAll toyKit .isomorphism newStor [2, 5, 8, 7, 1, 11] =
    .ok (⟨[([2], [(1, 7)]), ([3], [(1, 2), (2, 5)])], 3, [], 0, none⟩, [1, 2, 1, 1, 1, 2]) := by decide +kernel
example : (visit toyKit 6 (⟨[([2], [(1, 7)]), ([3], [(1, 2), (2, 5)])], 3, [], 0, none⟩ : Stor Nat)).map Prod.snd =
    .ok [(1, 1), (2, 1), (5, 2)] := by decide +kernel

/-! ### Unsigned diagrams and isotopy -/

/-- The store of crossing and edge lists, with the real packing. -/
def packKit (hash : List Cross × List Edge → Hash) (iso : List Cross × List Edge → List Cross × List Edge → Res Bool) :
    Kit (List Cross × List Edge) (List Nat) where
  hash := hash
  pack pd := Pack.pack pd.1 pd.2
  unpack := Pack.unpackRaw
  isomorphic := iso
  isotopic := iso

/-- C33 fails for unsigned diagrams in the mode `DIAGRAM_ISOTOPY`: packing turns missing signs into negative
ones, so the stored copy of a diagram is not recognised. Whatever the test is, as long as it tells
a diagram all of whose signs are set from one without signs, inserting the same diagram
twice stores it twice. -/
theorem C33_unsigned_stored_twice (hash : List Cross × List Edge → Hash)
    (iso : List Cross × List Edge → List Cross × List Edge → Res Bool)
    (hiso : ∀ a b, (∀ c ∈ a.1, c.sign ≠ .unset) → (∀ c ∈ b.1, c.sign = .unset) → iso a b = .ok false)
    (cross : List Cross) (edge : List Edge)
    (h : Consistent cross edge) (hne : cross ≠ []) (hbig : cross.length < 2 ^ 31)
    (hs : ∀ c ∈ cross, c.sign = .unset) :
    ∃ s, addAll (packKit hash iso) .isotopy newStor [(cross, edge), (cross, edge)] = .ok (s, [1, 2]) ∧
      (entries s).length = 2 := by
  obtain ⟨ws, h1, h2⟩ := Pack.C04_unsigned_roundtrip_partial cross edge h hne hbig hs
  have hp : (packKit hash iso).pack (cross, edge) = .ok ws := h1
  have hu : (packKit hash iso).unpack ws = .ok (cross.map (fun c => { c with sign := .neg }), edge) := h2
  have ht : same (packKit hash iso) .isotopy (cross.map (fun c => { c with sign := .neg }), edge) (cross, edge) = .ok false :=
    hiso _ _ (by
      intro c hc
      simp only [List.mem_map] at hc
      obtain ⟨d, _, rfl⟩ := hc
      simp) hs
  generalize hh : (packKit hash iso).hash (cross, edge) = hv
  have s1 : addto (packKit hash iso) .isotopy newStor (cross, edge) =
      .ok (⟨[(hv, [(1, ws)])], 1, [], 0, none⟩, 1) := by
    unfold addto
    simp only [newStor, Stor.reset, jslg, Option.getD_none, scan, hh]
    rw [ok_bind]
    simp only []
    rw [hp, ok_bind]
    rfl
  have s2 : addto (packKit hash iso) .isotopy ⟨[(hv, [(1, ws)])], 1, [], 0, none⟩ (cross, edge) =
      .ok (⟨[(hv, [(1, ws), (2, ws)])], 2, [], 0, none⟩, 2) := by
    unfold addto
    simp only [Stor.reset, jslg, hh, if_true, Option.getD_some, scan, findLoop]
    rw [if_pos (by decide), hu, ok_bind, ht, ok_bind, if_neg (by decide), ok_bind]
    simp only []
    rw [hp, ok_bind]
    simp [jli, jsli]
  refine ⟨⟨[(hv, [(1, ws), (2, ws)])], 2, [], 0, none⟩, ?_, rfl⟩
  unfold addAll
  rw [s1, ok_bind]
  simp only []
  unfold addAll
  rw [s2, ok_bind]
  rfl

example : ∃ cross edge, Consistent cross edge ∧ cross ≠ [] ∧ cross.length < 2 ^ 31 ∧
    ∀ c ∈ cross, c.sign = .unset :=
  ⟨trefoilCross .unset, trefoilEdge, by decide, by decide, by decide, by decide⟩

end Plc
