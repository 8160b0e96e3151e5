import Verif.Proofs.HeadsSwapped
import Verif.Proofs.Distinct

/-! Two diagrams beside each other, and their connected sum. -/

namespace Plc.Beside

open Plc.Core Plc.Cmp Plc.Places Plc.Orbit Plc.Faces Plc.Planar

variable {cA cB : List Cross} {eA eB : List Edge}

theorem edge_left {e : Nat} (h : e < eA.length) (n : Nat) : (besideEdge eA n eB)[e]? = eA[e]? := by
  unfold besideEdge
  rw [List.getElem?_append_left h]

theorem edge_right (n e : Nat) : (besideEdge eA n eB)[eA.length + e]? = (eB[e]?).map (shiftEdge n) := by
  unfold besideEdge
  rw [List.getElem?_append_right (by omega), List.getElem?_map]
  congr 2
  omega

theorem cross_left {c : Nat} (h : c < cA.length) (m : Nat) : (besideCross cA m cB)[c]? = cA[c]? := by
  unfold besideCross
  rw [List.getElem?_append_left h]

theorem cross_right (m c : Nat) : (besideCross cA m cB)[cA.length + c]? = (cB[c]?).map (shiftCross m) := by
  unfold besideCross
  rw [List.getElem?_append_right (by omega), List.getElem?_map]
  congr 2
  omega

theorem edge_len (n : Nat) : (besideEdge eA n eB).length = eA.length + eB.length := by simp [besideEdge]

theorem cross_len (m : Nat) : (besideCross cA m cB).length = cA.length + cB.length := by simp [besideCross]

theorem shift_at (m k : Nat) (x : Cross) : (shiftCross m x).at k = x.at k + m := by
  unfold Cross.at shiftCross
  split <;> rfl

theorem slot_left {c : Nat} (h : c < cA.length) (m k : Nat) : slot (besideCross cA m cB) c k = slot cA c k := by
  unfold slot
  rw [cross_left h]

theorem slot_right (m c k : Nat) : slot (besideCross cA m cB) (cA.length + c) k = (slot cB c k).map (· + m) := by
  unfold slot
  rw [cross_right]
  split
  · rw [Option.map_map, Option.map_map]
    congr 1
    funext x
    exact shift_at m k x
  · rfl

/-- Every edge comes from one of the two. -/
theorem edge_cases {n e : Nat} {r : Edge} (h : (besideEdge eA n eB)[e]? = some r) :
    eA[e]? = some r ∨ ∃ f s, e = eA.length + f ∧ eB[f]? = some s ∧ r = shiftEdge n s := by
  rcases Nat.lt_or_ge e eA.length with hlt | hge
  · rw [edge_left hlt] at h
    exact .inl h
  · obtain ⟨f, rfl⟩ := Nat.exists_eq_add_of_le hge
    rw [edge_right] at h
    obtain ⟨s, h1, h2⟩ := Option.map_eq_some_iff.mp h
    exact .inr ⟨f, s, rfl, h1, h2.symm⟩

theorem consistent (hA : Consistent cA eA) (hB : Consistent cB eB) :
    Consistent (besideCross cA eA.length cB) (besideEdge eA cA.length eB) where
  count := by rw [edge_len, cross_len, hA.count, hB.count]; omega
  head := by
    intro e r hr
    rcases edge_cases hr with h | ⟨f, s, rfl, h, rfl⟩
    · have := hA.head e r h
      rw [slot_left (slot_lt this).1, this]
    · change slot _ (s.head + cA.length) s.headpos = _
      rw [Nat.add_comm s.head, slot_right, hB.head f s h, Option.map_some, Nat.add_comm]
  tail := by
    intro e r hr
    rcases edge_cases hr with h | ⟨f, s, rfl, h, rfl⟩
    · have := hA.tail e r h
      rw [slot_left (slot_lt this).1, this]
    · change slot _ (s.tail + cA.length) s.tailpos = _
      rw [Nat.add_comm s.tail, slot_right, hB.tail f s h, Option.map_some, Nat.add_comm]
  ends_ne := by
    intro e r hr
    rcases edge_cases hr with h | ⟨f, s, rfl, h, rfl⟩
    · exact hA.ends_ne e r h
    · have := hB.ends_ne f s h
      unfold shiftEdge
      simp only [ne_eq, Prod.mk.injEq, not_and] at this ⊢
      intro q
      exact this (by omega)

theorem oriented (hA : Oriented cA eA) (hB : Oriented cB eB) :
    Oriented (besideCross cA eA.length cB) (besideEdge eA cA.length eB) where
  through_head := by
    intro e r hr
    rcases edge_cases hr with h | ⟨f, s, rfl, h, rfl⟩
    · obtain ⟨e', r', h1, h2⟩ := hA.through_head e r h
      exact ⟨e', r', by rw [edge_left (List.getElem?_eq_some_iff.mp h1).1, h1], h2⟩
    · obtain ⟨e', r', h1, h2, h3⟩ := hB.through_head f s h
      exact ⟨eA.length + e', _, by rw [edge_right, h1]; rfl, by simp [shiftEdge, h2], by simp [shiftEdge, h3]⟩
  through_tail := by
    intro e r hr
    rcases edge_cases hr with h | ⟨f, s, rfl, h, rfl⟩
    · obtain ⟨e', r', h1, h2⟩ := hA.through_tail e r h
      exact ⟨e', r', by rw [edge_left (List.getElem?_eq_some_iff.mp h1).1, h1], h2⟩
    · obtain ⟨e', r', h1, h2, h3⟩ := hB.through_tail f s h
      exact ⟨eA.length + e', _, by rw [edge_right, h1]; rfl, by simp [shiftEdge, h2], by simp [shiftEdge, h3]⟩

/-- A place of the second diagram. -/
def sh (n : Nat) (p : Nat × Nat) : Nat × Nat := (p.1 + n, p.2)

theorem left_ends {e : Nat} (h : e < eA.length) (n : Nat) : (besideEdge eA n eB)[e]! = eA[e]! := by
  have h1 : (besideEdge eA n eB)[e]? = some eA[e]! := by rw [edge_left h]; simp [h]
  exact (getBang h1).1

theorem right_ends {e : Nat} (h : e < eB.length) (n : Nat) : (besideEdge eA n eB)[eA.length + e]! = shiftEdge n eB[e]! := by
  have h1 : (besideEdge eA n eB)[eA.length + e]? = some (shiftEdge n eB[e]!) := by rw [edge_right]; simp [h]
  exact (getBang h1).1

theorem mem_left {p : Nat × Nat} (m : Nat) (h : p ∈ P cA) : p ∈ P (besideCross cA m cB) := by
  rw [mem_P] at *
  rw [cross_len]
  omega

theorem mem_right {p : Nat × Nat} (m : Nat) (h : p ∈ P cB) : sh cA.length p ∈ P (besideCross cA m cB) := by
  rw [mem_P] at *
  rw [cross_len]
  unfold sh
  simp only
  omega

theorem mem_cases {p : Nat × Nat} {m : Nat} (h : p ∈ P (besideCross cA m cB)) : p ∈ P cA ∨ ∃ q ∈ P cB, p = sh cA.length q := by
  rw [mem_P, cross_len] at h
  rcases Nat.lt_or_ge p.1 cA.length with hlt | hge
  · exact .inl (mem_P.mpr ⟨hlt, h.2⟩)
  · refine .inr ⟨(p.1 - cA.length, p.2), mem_P.mpr ⟨by simp only; omega, h.2⟩, ?_⟩
    unfold sh
    ext
    · simp only; omega
    · rfl

theorem fnext_left (hA : Consistent cA eA) (hB : Consistent cB eB) {p : Nat × Nat} (hp : p ∈ P cA) :
    fnext (besideCross cA eA.length cB) (besideEdge eA cA.length eB) p = fnext cA eA p := by
  have hU := consistent hA hB
  have hlt := eslot_lt hA hp
  have hlt' : eslot cA p < (besideEdge eA cA.length eB).length := by rw [edge_len]; omega
  have b := left_ends (eB := eB) hlt cA.length
  have o1 := oth_hd hU hlt'
  have o2 := oth_tl hU hlt'
  rw [b] at o1 o2
  unfold fnext
  rcases ends_at hA hp with e | e
  · rw [← e, o1, oth_hd hA hlt]
  · rw [← e, o2, oth_tl hA hlt]

theorem hd_shift (n : Nat) (r : Edge) : hd (shiftEdge n r) = sh n (hd r) := rfl

theorem tl_shift (n : Nat) (r : Edge) : tl (shiftEdge n r) = sh n (tl r) := rfl

theorem turn_sh (n k : Nat) (p : Nat × Nat) : turn k (sh n p) = sh n (turn k p) := rfl

theorem fnext_right (hA : Consistent cA eA) (hB : Consistent cB eB) {p : Nat × Nat} (hp : p ∈ P cB) :
    fnext (besideCross cA eA.length cB) (besideEdge eA cA.length eB) (sh cA.length p) = sh cA.length (fnext cB eB p) := by
  have hU := consistent hA hB
  have hlt := eslot_lt hB hp
  have hlt' : eA.length + eslot cB p < (besideEdge eA cA.length eB).length := by rw [edge_len]; omega
  have b := right_ends (eA := eA) hlt cA.length
  have o1 := oth_hd hU hlt'
  have o2 := oth_tl hU hlt'
  rw [b, hd_shift, tl_shift] at o1 o2
  unfold fnext
  rcases ends_at hB hp with e | e
  · rw [← e, o1, oth_hd hB hlt, turn_sh]
  · rw [← e, o2, oth_tl hB hlt, turn_sh]

theorem return_left (hA : Consistent cA eA) (hB : Consistent cB eB) :
    Return (fnext cA eA) (P cA) (fnext (besideCross cA eA.length cB) (besideEdge eA cA.length eB))
      (P (besideCross cA eA.length cB)) id where
  maps := fun p hp => mem_left _ hp
  inj := fun p _ q _ h => h
  back := fun p hp => ⟨0, by
    rw [Function.iterate_succ_apply, Function.iterate_zero, id, id, fnext_left hA hB hp]; rfl, by omega⟩

theorem return_right (hA : Consistent cA eA) (hB : Consistent cB eB) :
    Return (fnext cB eB) (P cB) (fnext (besideCross cA eA.length cB) (besideEdge eA cA.length eB))
      (P (besideCross cA eA.length cB)) (sh cA.length) where
  maps := fun p hp => mem_right _ hp
  inj := fun p _ q _ h => by
    unfold sh at h
    simp only [Prod.mk.injEq] at h
    ext <;> omega
  back := fun p hp => ⟨0, by
    rw [Function.iterate_succ_apply, Function.iterate_zero, id, fnext_right hA hB hp], by omega⟩

/-- Faces stay on their side. -/
theorem cyc_left (hA : Consistent cA eA) (hB : Consistent cB eB) {p q : Nat × Nat} (hp : p ∈ P cA)
    (hq : q ∈ cyc (fnext (besideCross cA eA.length cB) (besideEdge eA cA.length eB)) p) : q ∈ P cA := by
  rw [(injOn_fnext (consistent hA hB)).mem_cyc (mem_left _ hp)] at hq
  obtain ⟨k, rfl⟩ := hq
  induction k with
  | zero => exact hp
  | succ k ih =>
    rw [Function.iterate_succ_apply', fnext_left hA hB ih]
    exact (injOn_fnext hA).maps _ ih

theorem not_left {q : Nat × Nat} : sh cA.length q ∉ P cA := by
  rw [mem_P]
  unfold sh
  simp only
  omega

theorem reps (hA : Consistent cA eA) (hB : Consistent cB eB) {R S : List (Nat × Nat)} (hR : Reps (fnext cA eA) (P cA) R)
    (hS : Reps (fnext cB eB) (P cB) S) :
    Reps (fnext (besideCross cA eA.length cB) (besideEdge eA cA.length eB)) (P (besideCross cA eA.length cB))
      (R ++ S.map (sh cA.length)) := by
  have hI := injOn_fnext (consistent hA hB)
  have rl := return_left hA hB
  have rr := return_right hA hB
  have key := rl.reps (injOn_fnext hA) hI hR (X := S.map (sh cA.length))
    (by
      intro x hx
      obtain ⟨p, hp, rfl⟩ := List.mem_map.mp hx
      exact rr.maps p (hS.mem p hp))
    (by
      rw [List.pairwise_map]
      refine List.Pairwise.imp_of_mem ?_ hS.sep
      intro a b ha hb hab
      rw [rr.cyc_iff (injOn_fnext hB) hI (hS.mem a ha) (hS.mem b hb)]
      exact hab)
    (by
      intro x hx s hs hc
      obtain ⟨p, hp, rfl⟩ := List.mem_map.mp hx
      exact not_left (cyc_left hA hB hs hc))
    (by
      intro t ht
      rcases mem_cases ht with h | ⟨q, hq, rfl⟩
      · exact .inl ⟨t, h, hI.self_mem_cyc ht⟩
      · right
        obtain ⟨r, h1, h2⟩ := hS.cover q hq
        exact ⟨_, List.mem_map_of_mem h1, (rr.cyc_iff (injOn_fnext hB) hI (hS.mem r h1) hq).mpr h2⟩)
  rwa [List.map_id] at key

/-- The two sides of an edge of a plane diagram are on different faces. -/
theorem sides_apart (h : PlaneDiagram cA eA) {e : Nat} (he : e < eA.length) : hd eA[e]! ∉ cyc (fnext cA eA) (tl eA[e]!) := by
  have hC := h.consistent
  have := Planar.sides_differ hC h.oriented h.connected h.plane he
  rw [← (return_begp hC).cyc_iff (injOn_nd hC) (injOn_fnext hC) (mem_D.mpr ⟨he, .inl rfl⟩) (mem_D.mpr ⟨he, .inr rfl⟩)] at this
  exact this

/-! ### Connectedness -/

/-- Joined by an edge other than `e`. -/
def JoinedBut (edge : List Edge) (e c d : Nat) : Prop :=
  ∃ f r, f ≠ e ∧ edge[f]? = some r ∧ ((r.head = c ∧ r.tail = d) ∨ (r.head = d ∧ r.tail = c))

/-- The rest of a strand leads from the head of an edge to its tail. -/
theorem around {cross : List Cross} {edge : List Edge} (hC : Consistent cross edge) (hO : Oriented cross edge) {e : Nat}
    (he : e < edge.length) : Relation.ReflTransGen (JoinedBut edge e) edge[e]!.head edge[e]!.tail := by
  have hI := Comps.injOn_nx hC hO
  have hm : ∀ k, (Comps.nx cross edge)^[k] e < edge.length := fun k =>
    List.mem_range.mp (by simpa using hI.iterate_mem (by simpa using he) k)
  classical
  have back : ∃ k, (Comps.nx cross edge)^[k + 1] e = e := by
    obtain ⟨k, hk⟩ := hI.reach_symm (x := e) (by simpa using he) ⟨1, rfl⟩
    exact ⟨k, hk⟩
  obtain ⟨m, h1, hmin⟩ : ∃ k, (Comps.nx cross edge)^[k + 1] e = e ∧ ∀ j, j < k → (Comps.nx cross edge)^[j + 1] e ≠ e :=
    ⟨Nat.find back, Nat.find_spec back, fun j hj => Nat.find_min back hj⟩
  have tail : ∀ k, edge[(Comps.nx cross edge)^[k + 1] e]!.tail = edge[(Comps.nx cross edge)^[k] e]!.head := by
    intro k
    have := congrArg Prod.fst (Comps.nx_spec hC hO (hm k)).2
    rw [Function.iterate_succ_apply']
    exact this
  have walk : ∀ k, k ≤ m → Relation.ReflTransGen (JoinedBut edge e) edge[e]!.head edge[(Comps.nx cross edge)^[k] e]!.head := by
    intro k
    induction k with
    | zero => exact fun _ => .refl
    | succ k ih =>
      intro hk
      refine (ih (by omega)).tail ⟨_, edge[(Comps.nx cross edge)^[k + 1] e]!, hmin k (by omega), ?_, .inr ⟨rfl, tail k⟩⟩
      have := hm (k + 1)
      rw [getElem!_pos edge _ this]
      exact List.getElem?_eq_getElem this
  have := walk m le_rfl
  rw [← tail m, h1] at this
  exact this

theorem joinedBut_symm {edge : List Edge} {e : Nat} {c d : Nat} (h : JoinedBut edge e c d) : JoinedBut edge e d c := by
  obtain ⟨f, r, h1, h2, h3⟩ := h
  exact ⟨f, r, h1, h2, h3.symm⟩

theorem rtg_symm {R : Nat → Nat → Prop} (hs : ∀ {c d}, R c d → R d c) {c d : Nat} (h : Relation.ReflTransGen R c d) :
    Relation.ReflTransGen R d c := by
  induction h with
  | refl => exact .refl
  | tail _ h ih => exact .head (hs h) ih

theorem rtg_lift {R S : Nat → Nat → Prop} (f : Nat → Nat) (h : ∀ {c d}, R c d → Relation.ReflTransGen S (f c) (f d)) {c d : Nat}
    (hr : Relation.ReflTransGen R c d) : Relation.ReflTransGen S (f c) (f d) := by
  induction hr with
  | refl => exact .refl
  | tail _ q ih => exact ih.trans (h q)

theorem joined_symm {edge : List Edge} {c d : Nat} (h : Joined edge c d) : Joined edge d c := by
  obtain ⟨r, h1, h2⟩ := h
  exact ⟨r, h1, h2.symm⟩

variable {a b : Nat} {cross' : List Cross} {edge' : List Edge}

/-- The connected sum of two plane diagrams is a plane diagram. -/
theorem sum_plane (hA : PlaneDiagram cA eA) (hB : PlaneDiagram cB eB) (ha : a < eA.length) (hb : b < eB.length)
    (h : HeadsSwapped (besideCross cA eA.length cB) (besideEdge eA cA.length eB) a (eA.length + b) cross' edge') :
    PlaneDiagram cross' edge' := by
  have cU := consistent hA.consistent hB.consistent
  have oU := oriented hA.oriented hB.oriented
  have lena : a < (besideEdge eA cA.length eB).length := by rw [edge_len]; omega
  have lenb : eA.length + b < (besideEdge eA cA.length eB).length := by rw [edge_len]; omega
  have cS := h.consistent cU lena lenb
  have ta := (tl_mem hA.consistent ha).1
  have da := (hd_mem hA.consistent ha).1
  have tb := (tl_mem hB.consistent hb).1
  have db := (hd_mem hB.consistent hb).1
  have ba := left_ends (eB := eB) ha cA.length
  have bb := right_ends (eA := eA) hb cA.length
  refine ⟨cS, h.oriented oU lena lenb, ?_, ?_, ?_⟩
  · intro hn
    have := h.len
    rw [hn, cross_len] at this
    have h0 := List.length_pos_iff.mpr hA.nonempty
    rw [List.length_nil] at this
    omega
  · -- connected
    have keep : ∀ (e : Nat) (r : Edge), (besideEdge eA cA.length eB)[e]? = some r → e ≠ a → e ≠ eA.length + b → r ∈ edge' := by
      intro e r hr h1 h2
      obtain ⟨t, q1, q2⟩ := h.ends e r hr
      rw [if_neg h1, if_neg h2, hr] at q1
      cases q1
      exact List.mem_of_getElem? q2
    have hna : Joined edge' eA[a]!.tail (eB[b]!.head + cA.length) := by
      obtain ⟨t, q1, q2⟩ := h.ends a eA[a]! (by rw [edge_left ha]; simp [ha])
      rw [if_pos rfl] at q1
      have := (getBang q1).1
      rw [bb] at this
      rw [← this] at q2
      exact ⟨_, List.mem_of_getElem? q2, .inr ⟨rfl, rfl⟩⟩
    have hnb : Joined edge' (eB[b]!.tail + cA.length) eA[a]!.head := by
      obtain ⟨t, q1, q2⟩ := h.ends (eA.length + b) (shiftEdge cA.length eB[b]!) (by rw [edge_right]; simp [hb])
      rw [if_neg (by omega), if_pos rfl] at q1
      have := (getBang q1).1
      rw [ba] at this
      rw [← this] at q2
      exact ⟨_, List.mem_of_getElem? q2, .inr ⟨rfl, rfl⟩⟩
    have butA : ∀ {c d : Nat}, JoinedBut eA a c d → Joined edge' c d := by
      rintro c d ⟨f, r, h1, h2, h3⟩
      have hf := (List.getElem?_eq_some_iff.mp h2).1
      exact ⟨r, keep f r (by rw [edge_left hf, h2]) h1 (by omega), h3⟩
    have butB : ∀ {c d : Nat}, JoinedBut eB b c d → Joined edge' (c + cA.length) (d + cA.length) := by
      rintro c d ⟨f, r, h1, h2, h3⟩
      refine ⟨_, keep (eA.length + f) (shiftEdge cA.length r) (by rw [edge_right, h2]; rfl) (by omega) (by omega), ?_⟩
      unfold shiftEdge
      simp only
      omega
    have arA : Relation.ReflTransGen (Joined edge') eA[a]!.head eA[a]!.tail :=
      rtg_lift (fun c => c) (fun q => .single (butA q)) (around hA.consistent hA.oriented ha)
    have arB : Relation.ReflTransGen (Joined edge') (eB[b]!.head + cA.length) (eB[b]!.tail + cA.length) :=
      rtg_lift (fun c => c + cA.length) (fun q => .single (butB q)) (around hB.consistent hB.oriented hb)
    have sy := @rtg_symm (Joined edge') (fun q => joined_symm q)
    have inA : ∀ {c d : Nat}, Joined eA c d → Relation.ReflTransGen (Joined edge') c d := by
      rintro c d ⟨r, h1, h2⟩
      obtain ⟨f, hf⟩ := List.mem_iff_getElem?.mp h1
      by_cases hfa : f = a
      · subst hfa
        have := (getBang hf).1
        rw [this] at arA
        rcases h2 with ⟨rfl, rfl⟩ | ⟨rfl, rfl⟩
        · exact arA
        · exact sy arA
      · exact .single (butA ⟨f, r, hfa, hf, h2⟩)
    have inB : ∀ {c d : Nat}, Joined eB c d → Relation.ReflTransGen (Joined edge') (c + cA.length) (d + cA.length) := by
      rintro c d ⟨r, h1, h2⟩
      obtain ⟨f, hf⟩ := List.mem_iff_getElem?.mp h1
      by_cases hfa : f = b
      · subst hfa
        have := (getBang hf).1
        rw [this] at arB
        rcases h2 with ⟨rfl, rfl⟩ | ⟨rfl, rfl⟩
        · exact arB
        · exact sy arB
      · exact .single (butB ⟨f, r, hfa, hf, h2⟩)
    -- everything is reached from the tail of `a`
    have all : ∀ c, c < cross'.length → Relation.ReflTransGen (Joined edge') eA[a]!.tail c := by
      intro c hc
      rw [h.len, cross_len] at hc
      rcases Nat.lt_or_ge c cA.length with hlt | hge
      · have := hA.connected _ c (mem_P.mp ta).1 hlt
        exact rtg_lift (fun c => c) (fun q => inA q) this
      · obtain ⟨d, rfl⟩ := Nat.exists_eq_add_of_le hge
        refine .head hna ?_
        have := hB.connected _ d (mem_P.mp db).1 (by omega)
        have := rtg_lift (fun c => c + cA.length) (fun q => inB q) this
        rw [Nat.add_comm cA.length d]
        exact this
    exact fun c d hc hd => (sy (all c hc)).trans (all d hd)
  · -- faces
    obtain ⟨R, hR, nR⟩ := (planeFaces_iff hA.consistent).mp hA.plane
    obtain ⟨S, hS, nS⟩ := (planeFaces_iff hB.consistent).mp hB.plane
    have hU := reps hA.consistent hB.consistent hR hS
    have hI := injOn_fnext cU
    obtain ⟨T, hT, nT⟩ := h.faces_merge cU lena lenb
      (by rw [ba, bb, tl_shift]; exact fun q => not_left (cyc_left hA.consistent hB.consistent ta q))
      (by rw [ba, bb, hd_shift]; exact fun q => not_left (cyc_left hA.consistent hB.consistent da q))
      (by
        rw [ba]
        have := (return_left hA.consistent hB.consistent).cyc_iff (injOn_fnext hA.consistent) hI ta da
        exact fun q => sides_apart hA ha (this.mp q))
      (by
        rw [ba, bb, tl_shift]
        intro q
        have hmb := (return_right hA.consistent hB.consistent (cA := cA) (eA := eA)).maps _ tb
        rw [hI.mem_cyc hmb] at q
        have := hI.reach_symm hmb q
        rw [← hI.mem_cyc (mem_left _ da)] at this
        exact not_left (cyc_left hA.consistent hB.consistent da this))
      hU
    rw [planeFaces_iff_all cS hT, h.len, cross_len]
    simp only [List.length_append, List.length_map] at nT
    omega

end Plc.Beside
