import Verif.Proofs.VectRound

/-!
# C67: a curve written to a VECT file and read back
-/

namespace Plc

namespace Vect

open Plc.Io Plc.Cst

variable {N : NumFmt}

theorem matchLit_head (x : List Char) (h : Stops x) : matchLit (str "VECT") (skip (str "VECT \n" ++ x)) = some x := by
  have e : str "VECT \n" ++ x = 'V' :: 'E' :: 'C' :: 'T' :: ' ' :: '\n' :: x := rfl
  have e2 : str "VECT" = ['V', 'E', 'C', 'T'] := rfl
  have hs : skip x = x := by
    rcases h with rfl | ⟨c, u, rfl, hc⟩
    · rfl
    · rw [skip, List.dropWhile_cons_of_neg (by rw [hc.1]; simp)]
  rw [e, e2, skip, List.dropWhile_cons_of_neg (by decide)]
  simp only [matchLit, if_true, skip] at hs ⊢
  rw [List.dropWhile_cons_of_pos (by decide), List.dropWhile_cons_of_pos (by decide), hs]

theorem head3 (a b c : Nat) (ha : a ≤ intMax) (hb : b ≤ intMax) (hc : c ≤ intMax) (e : Err) (s1 s2 : List Char) (h1 : s1 = [' '])
    (h2 : s2 = [' ']) (t : List Char) :
    scanInts e 3 (dec a ++ (s1 ++ (dec b ++ (s2 ++ (dec c ++ ' ' :: t))))) = .ok ([(a : Int), b, c], ' ' :: t) := by
  have sp : Gap [' '] := Gap.space (by decide)
  subst h1
  subst h2
  have q1 := scanInt_decI e Gap.nil (n := (a : Int)) (by simpa using ha) (c := ' ') (by decide)
    (dec b ++ ' ' :: (dec c ++ ' ' :: t))
  have q2 := scanInt_decI e sp (n := (b : Int)) (by simpa using hb) (c := ' ') (by decide) (dec c ++ ' ' :: t)
  have q3 := scanInt_decI e sp (n := (c : Int)) (by simpa using hc) (c := ' ') (by decide) t
  rw [decI_nat] at q1 q2 q3
  rw [List.nil_append] at q1
  rw [List.singleton_append] at q2 q3
  simp only [List.singleton_append]
  rw [scanInts, q1, okb, scanInts]
  simp only
  rw [q2, okb, scanInts]
  simp only
  rw [q3]
  rfl

/-- The lines of comment in front of the first vertex. -/
def frontLines (cst : List (Cst (VV N))) : List (List (List Char)) :=
  [str "Colors", str "per", str "Compoment"] :: (defWords 1 cst ++ [[str "Vertex", str "coordinates"], headWords 0])

theorem frontLines_lines (cst : List (Cst (VV N))) : Lines (frontLines cst) := by
  intro ws hws
  simp only [frontLines, List.mem_cons, List.mem_append, List.not_mem_nil, or_false] at hws
  rcases hws with rfl | hws | rfl | rfl
  · exact ⟨by simp, by decide⟩
  · exact defWords_lines 1 cst ws hws
  · exact ⟨by simp, by decide⟩
  · exact head_lines 0 _ (by simp)

/-- What `plc_write` prints, with the lines of comment as such. -/
def shape (cp : List (Strand N)) (cst : List (Cst (VV N))) (nums : List (List Nat)) : List Char :=
  str "VECT \n" ++ (dec cp.length ++ (str " " ++ (dec (cp.map fun s => s.vt.length).sum ++ (str " " ++
    (dec (cp.map fun s => s.clr.length).sum ++ (' ' :: (cline [str "Components", str "Vertices", str "Colors"] ++
    ((cp.map signedNv).flatMap (fun x => decI x ++ str " ") ++ (cline [str "Vertices", str "per", str "Component"] ++
    ((cp.map fun s => (s.clr.length : Int)).flatMap (fun x => decI x ++ str " ") ++
    (block (frontLines cst) ++ (ctxt (cline [str "Colors", str "(red", str "green", str "blue", str "alpha)"] ++ colBlock 0 cp) []
      0 cp nums))))))))))))

theorem front_eq (cst : List (Cst (VV N))) (X : List Char) : block (frontLines cst) ++ X =
    cline [str "Colors", str "per", str "Compoment"] ++ (block (defWords 1 cst) ++ (cline [str "Vertex", str "coordinates"] ++
      (cline (headWords 0) ++ X))) := by
  simp only [block, frontLines, List.flatMap_cons, List.flatMap_append, List.flatMap_nil, List.append_nil, List.append_assoc]

theorem write_shape (L : Curve N) (hne : L.cp ≠ []) (nums : List (List Nat)) (hl : nums.length = L.cp.length)
    (h : writeCsts [] (L.cp.map fun s => List.replicate s.vt.length 0) L.cst = .ok (block (defWords 1 L.cst), nums)) :
    write L = .ok (shape L.cp L.cst nums) := by
  have h0 : decide (0 < L.cp.length) = true := by
    have := List.length_pos_iff.2 hne
    simpa using this
  obtain ⟨s, ss, hs⟩ : ∃ s ss, L.cp = s :: ss := by
    cases hc : L.cp with
    | nil => exact absurd hc hne
    | cons s ss => exact ⟨s, ss, rfl⟩
  obtain ⟨r, rs, hr⟩ : ∃ r rs, nums = r :: rs := by
    cases hc : nums with
    | nil => rw [hc, hs] at hl; simp at hl
    | cons s ss => exact ⟨s, ss, rfl⟩
  unfold write
  rw [h0, assertC_ok rfl, ok_bind, h, ok_bind]
  simp only
  congr 1
  unfold shape
  rw [front_eq]
  have f1 : (L.cp.map signedNv).flatMap (fun x => decI x ++ str " ") = L.cp.flatMap (fun s => decI (signedNv s) ++ str " ") := by
    rw [List.flatMap_map]
  have f2 : (L.cp.map fun s => (s.clr.length : Int)).flatMap (fun x => decI x ++ str " ") =
      L.cp.flatMap (fun s => dec s.clr.length ++ str " ") := by
    rw [List.flatMap_map]
    rfl
  rw [f1, f2]
  have f3 : ∀ T, vertBlock 0 L.cp nums ++ T = cline (headWords 0) ++ ctxt T [] 0 L.cp nums := by
    intro T
    rw [hs, hr, vertBlock_cons, ctxt_cons, List.append_assoc, List.append_assoc]
  have f3' := f3 (str "# Colors (red green blue alpha)\n" ++ colBlock 0 L.cp)
  rw [f3']
  rfl

/-- What `plc_read` does with a text of this shape. -/
theorem read_shape (L : Curve N) (hp : Proper L) (X : List Char)
    (hX : Stops X) (tab : Rd (List (Entry N)))
    (htab : ∀ w : List (List Char), w = (frontLines L.cst).flatten →
      readCsts ((outw w).length + 1) (List.replicate 2 (some (.unconstrained, zero3 N, zero3 N))) (outw w) = tab) :
    read N (str "VECT \n" ++ (dec L.cp.length ++ (str " " ++ (dec (L.cp.map fun s => s.vt.length).sum ++ (str " " ++
    (dec (L.cp.map fun s => s.clr.length).sum ++ (' ' :: (cline [str "Components", str "Vertices", str "Colors"] ++
    ((L.cp.map signedNv).flatMap (fun x => decI x ++ str " ") ++ (cline [str "Vertices", str "per", str "Component"] ++
    ((L.cp.map fun s => (s.clr.length : Int)).flatMap (fun x => decI x ++ str " ") ++
    (block (frontLines L.cst) ++ X)))))))))))) =
    (do
      let tab ← tab
      let v ← readComps tab (L.cp.map fun s => s.vt.length) 0 (L.cp.map fun s => s.vt.length) [] X
      let cols ← readAllCols N (L.cp.map fun s => s.clr.length) v.2.2
      .ok ⟨(strands (L.cp.map signedNv) v.1 cols).map fixWrap, v.2.1⟩) := by
  have hsum : ∀ s ∈ L.cp, s.vt.length ≤ (L.cp.map fun s => s.vt.length).sum := by
    generalize L.cp = cp
    induction cp with
    | nil => simp
    | cons a l ih =>
      intro s hs
      simp only [List.map_cons, List.sum_cons]
      rcases List.mem_cons.1 hs with rfl | hs
      · omega
      · have := ih s hs
        omega
  have hcol : (L.cp.map fun s => s.clr.length).sum ≤ (L.cp.map fun s => s.vt.length).sum := by
    have := hp.verts
    generalize L.cp = cp at this
    induction cp with
    | nil => simp
    | cons s ss ih =>
      have h1 := this s (by simp)
      have := ih (fun x hx => this x (by simp [hx]))
      simp only [List.map_cons, List.sum_cons]
      omega
  have hint := hp.small
  have hne : L.cp.map signedNv ≠ [] := by
    have := hp.comps
    simpa using this
  have hne2 : (L.cp.map fun s => (s.clr.length : Int)) ≠ [] := by
    have := hp.comps
    simpa using this
  unfold read
  rw [matchLit_head _ ((dec_word _).stops _)]
  simp only [need, okb]
  rw [head3 _ _ _ hint.1 hint.2 (by omega) .badCvcLine (str " ") (str " ") rfl rfl]
  simp only [okb, List.getD_cons_zero]
  have hpos : 0 < L.cp.length := List.length_pos_iff.2 hp.comps
  rw [if_neg (by omega), show Int.toNat (L.cp.length : Int) = L.cp.length from rfl]
  have g1 : Gap (' ' :: cline [str "Components", str "Vertices", str "Colors"]) := by
    have := Gap.append (Gap.space (c := ' ') (by decide)) (Gap.block [[str "Components", str "Vertices", str "Colors"]] (by
      intro ws hws
      rw [List.mem_singleton] at hws
      subst hws
      exact ⟨by simp, by decide⟩))
    simpa [block] using this
  have g2 : Gap (' ' :: cline [str "Vertices", str "per", str "Component"]) := by
    have := Gap.append (Gap.space (c := ' ') (by decide)) (Gap.block [[str "Vertices", str "per", str "Component"]] (by
      intro ws hws
      rw [List.mem_singleton] at hws
      subst hws
      exact ⟨by simp, by decide⟩))
    simpa [block] using this
  have s1 := scanInts_ok .badCvrtLine (L.cp.map signedNv) _ (cline [str "Vertices", str "per", str "Component"] ++
    ((L.cp.map fun s => (s.clr.length : Int)).flatMap (fun x => decI x ++ str " ") ++
    (block (frontLines L.cst) ++ X))) g1 hne (by
      intro x hx
      obtain ⟨s, hs, rfl⟩ := List.mem_map.1 hx
      have := hsum s hs
      unfold signedNv
      split <;> omega)
  rw [List.length_map, List.cons_append] at s1
  rw [s1]
  simp only [okb]
  have s2 := scanInts_ok .badClrLine (L.cp.map fun s => (s.clr.length : Int)) _ (block (frontLines L.cst) ++ X) g2 hne2 (by
      intro x hx
      obtain ⟨s, hs, rfl⟩ := List.mem_map.1 hx
      have := hsum s hs
      have := (hp.verts s hs).2
      simp only [Int.natAbs_natCast]
      omega)
  rw [List.length_map, List.cons_append] at s2
  rw [s2]
  simp only [okb]
  have e1 : (L.cp.map signedNv).map Int.natAbs = L.cp.map fun s => s.vt.length := by
    rw [List.map_map]
    apply List.map_congr_left
    intro s _
    simp only [Function.comp, signedNv]
    split <;> simp
  have e2 : (L.cp.map fun s => (s.clr.length : Int)).map Int.toNat = L.cp.map fun s => s.clr.length := by
    rw [List.map_map]
    apply List.map_congr_left
    intro s _
    rfl
  rw [e1, e2, newOk_ok L.cp hp.verts, assertC_ok rfl]
  simp only [lift, okb]
  rw [comment_block _ (frontLines_lines L.cst) (by decide) hX]
  simp only
  rw [htab _ rfl]

theorem front_flat (cst : List (Cst (VV N))) : (frontLines cst).flatten =
    [str "Colors", str "per", str "Compoment"] ++ ((defWords 1 cst).flatten ++ ([str "Vertex", str "coordinates"] ++ headWords 0)) := by
  simp only [frontLines, List.flatten_cons, List.flatten_append, List.flatten_nil, List.append_nil]

theorem table_start : Table (List.replicate 2 (some (.unconstrained, zero3 N, zero3 N))) ([] : List (Cst (VV N))) :=
  ⟨by simp, by simp⟩

theorem front_small (cst : List (Cst (VV N))) (h29 : cst.length ≤ 29) (hk : ∀ c ∈ cst, c.kind ≠ .unconstrained)
    (w : List (List Char)) (hw : w = (frontLines cst).flatten) :
    ∃ tab, readCsts ((outw w).length + 1) (List.replicate 2 (some (.unconstrained, zero3 N, zero3 N))) (outw w) = .ok tab ∧
      Table tab cst := by
  have hlen : cst.length < (outw w).length + 1 := by
    have h1 := defWords_length 1 cst
    have h2 := outw_length w
    have h3 : (defWords 1 cst).flatten.length ≤ w.length := by
      rw [hw, front_flat, List.length_append, List.length_append]
      omega
    omega
  rw [front_flat] at hw
  generalize (outw w).length = f at hlen
  subst hw
  rw [readCsts_pre _ [str "Colors", str "per", str "Compoment"] f _ (by
    intro v hv
    simp only [List.mem_cons, List.not_mem_nil, or_false] at hv
    rcases hv with rfl | rfl | rfl
    · exact ⟨by decide, noTail_of_tails (by decide)⟩
    · exact ⟨by decide, noTail_of_tails (by decide)⟩
    · exact ⟨by decide, noTail_of_tails (by decide)⟩)]
  obtain ⟨tab, t1, t2⟩ := readCsts_small ([str "Vertex", str "coordinates"] ++ headWords 0) (by
    intro v hv
    rcases List.mem_append.1 hv with hv | hv
    · revert v
      decide
    · exact head_word 0 v hv) (by
    intro v hv
    rcases List.mem_append.1 hv with hv | hv
    · simp only [List.mem_cons, List.not_mem_nil, or_false] at hv
      rcases hv with rfl | rfl
      · exact noTail_of_tails (by decide)
      · exact noTail_of_tails (by decide)
    · exact head_noTail _ 'C' (by decide) (by decide) (by decide) 0 v hv) cst [] (f + 1) _ (by omega) table_start (by simpa using h29) hk
  exact ⟨tab, t1, by simpa using t2⟩

theorem front_large (cst : List (Cst (VV N))) (h30 : 30 ≤ cst.length) (hk : ∀ c ∈ cst, c.kind ≠ .unconstrained)
    (w : List (List Char)) (hw : w = (frontLines cst).flatten) :
    readCsts ((outw w).length + 1) (List.replicate 2 (some (.unconstrained, zero3 N, zero3 N))) (outw w) =
      .error (.fault .ub) := by
  have hlen : cst.length < (outw w).length + 1 := by
    have h1 := defWords_length 1 cst
    have h2 := outw_length w
    have h3 : (defWords 1 cst).flatten.length ≤ w.length := by
      rw [hw, front_flat, List.length_append, List.length_append]
      omega
    omega
  rw [front_flat] at hw
  generalize (outw w).length = f at hlen
  subst hw
  rw [readCsts_pre _ [str "Colors", str "per", str "Compoment"] f _ (by
    intro v hv
    simp only [List.mem_cons, List.not_mem_nil, or_false] at hv
    rcases hv with rfl | rfl | rfl
    · exact ⟨by decide, noTail_of_tails (by decide)⟩
    · exact ⟨by decide, noTail_of_tails (by decide)⟩
    · exact ⟨by decide, noTail_of_tails (by decide)⟩)]
  exact readCsts_large ([str "Vertex", str "coordinates"] ++ headWords 0) (by
    intro v hv
    rcases List.mem_append.1 hv with hv | hv
    · revert v
      decide
    · exact head_word 0 v hv) cst [] (f + 1) _ (by omega) table_start (by simp) (by simpa using h30) hk

theorem tabIs_start (cp : List (Strand N)) : TabIs (cp.map fun s => s.vt.length)
    (cp.map fun s => List.replicate s.vt.length 0) (numAt ([] : List (Cst (VV N)))) := by
  refine ⟨by simp, ?_⟩
  intro p m hm
  rw [List.getElem?_map] at hm
  cases hs : cp[p]? with
  | none => rw [hs] at hm; cases hm
  | some s =>
    rw [hs] at hm
    cases hm
    refine ⟨_, by rw [List.getElem?_map, hs]; rfl, by simp, ?_⟩
    intro v hv
    rw [List.getElem?_replicate, if_pos hv]
    rfl

/-- What `plc_write` prints, and its table of numbers. -/
theorem write_ok (L : Curve N) (hp : Proper L) : ∃ nums, write L = .ok (shape L.cp L.cst nums) ∧
    TabIs (L.cp.map fun s => s.vt.length) nums (numAt L.cst) := by
  obtain ⟨nums, w1, w2⟩ := writeCsts_ok (L.cp.map fun s => s.vt.length) L.cst [] _ (by simpa using hp.tidy) (by
    intro c hc
    obtain ⟨h1, h2, s, h3, h4⟩ := hp.inside c hc
    exact ⟨h1, h2, _, by rw [List.getElem?_map, h3]; rfl, h4⟩) (tabIs_start L.cp)
  exact ⟨nums, write_shape L hp.comps nums (by simpa using w2.len) w1, by simpa using w2⟩

theorem backKey_eq (c : Cst (VV N)) (h : c.kind ≠ .unconstrained) : backKey c = roundKey (c.kind, c.vect) := by
  obtain ⟨kind, vect, cmp, vert, num⟩ := c
  cases kind with
  | unconstrained => exact absurd rfl h
  | fixed => rfl
  | line => rfl
  | plane => rfl

theorem dec_two : ∀ k, k < 30 → (dec k).length ≤ 2 := by decide

theorem numAt_zero_iff (cst : List (Cst (VV N))) (ht : Tidy cst) (p : Nat) (v : Int) :
    numAt cst p v ≠ 0 → (answer cst p v).isSome := by
  intro h
  obtain ⟨i, c, -, h2, h3⟩ := numAt_pos h
  have := (answer_iff ht p v (c.kind, c.vect)).2 ⟨c, List.mem_of_getElem? h2, h3, rfl⟩
  rw [this]
  rfl

theorem numAt_le (cst : List (Cst (VV N))) (p : Nat) (v : Int) : numAt cst p v ≤ cst.length := by
  by_cases h : numAt cst p v = 0
  · omega
  · obtain ⟨i, c, h1, h2, -⟩ := numAt_pos h
    have := (List.getElem?_eq_some_iff.1 h2).1
    omega

/-- Two constraints of a tidy list covering the same vertex are the same one. -/
theorem cov_unique {cst : List (Cst (VV N))} (ht : Tidy cst) {i j : Nat} {c d : Cst (VV N)} (hi : cst[i]? = some c)
    (hj : cst[j]? = some d) {p : Nat} {v : Int} (h1 : Cov c p v) (h2 : Cov d p v) : i = j := by
  have hp := List.pairwise_iff_getElem.1 ht.1
  obtain ⟨hi', rfl⟩ := List.getElem?_eq_some_iff.1 hi
  obtain ⟨hj', rfl⟩ := List.getElem?_eq_some_iff.1 hj
  rcases Nat.lt_trichotomy i j with h | h | h
  · exact (Bef.not_cov (hp i j hi' hj' h) h1 h2).elim
  · exact h
  · exact (Bef.not_cov (hp j i hj' hi' h) h2 h1).elim

end Vect

open Plc.Io Plc.Cst Plc.Vect

variable {N : NumFmt}

/-- **C67.** A curve with at most 29 constraints, whose vertex lines are not cut off, is written and read back: the
same components, coordinates and colours with 16 digits, and each vertex with the constraint it had, its vectors with
6 digits. -/
theorem C67_round_trip (L : Curve N) (hp : Proper L) (h29 : L.cst.length ≤ 29) (hs : ShortLines L) :
    ∃ txt L', write L = .ok txt ∧ read N txt = .ok L' ∧ L'.cp = L.cp.map roundStrand ∧ Tidy L'.cst ∧
      ∀ p v, answer L'.cst p v = (answer L.cst p v).map roundKey := by
  obtain ⟨nums, w1, w2⟩ := write_ok L hp
  have hk : ∀ c ∈ L.cst, c.kind ≠ .unconstrained := fun c hc => (hp.tidy.2 c hc).2
  obtain ⟨ls0, R, c1, c2, c3, c4, c5⟩ := cols_ok L.cp 0
  obtain ⟨tab, t1, t2⟩ := front_small L.cst h29 hk _ rfl
  have hlen : nums.length = L.cp.length := by simpa using w2.len
  -- the lines behind the vertices
  have hT : cline [str "Colors", str "(red", str "green", str "blue", str "alpha)"] ++ colBlock 0 L.cp =
      block ([str "Colors", str "(red", str "green", str "blue", str "alpha)"] :: ls0) ++ R := by
    rw [c1]
    simp only [block, List.flatMap_cons, List.append_assoc]
  have hlT : Lines ([str "Colors", str "(red", str "green", str "blue", str "alpha)"] :: ls0) := by
    intro ws hws
    rcases List.mem_cons.1 hws with rfl | hws
    · exact ⟨by simp, by decide⟩
    · exact c2 ws hws
  have hnT : NoCst ([str "Colors", str "(red", str "green", str "blue", str "alpha)"] :: ls0) := by
    intro w hw
    rw [List.flatten_cons, List.mem_append] at hw
    rcases hw with hw | hw
    · simp only [List.mem_cons, List.not_mem_nil, or_false] at hw
      rcases hw with rfl | rfl | rfl | rfl | rfl <;> exact noTail_of_tails (by decide)
    · exact c3 w hw
  -- the meaning of the numbers
  obtain ⟨K, hKdef⟩ : ∃ K : Nat → Kind × VV N, ∀ n c, L.cst[n]? = some c → K (n + 1) = backKey c :=
    ⟨fun n => match L.cst[n - 1]? with | some c => backKey c | none => (.unconstrained, zero3 N, zero3 N), by
      intro n c h
      simp only [Nat.add_sub_cancel, h]⟩
  have hcomp : ∀ (a : Nat) (s : Strand N) (r : List Nat), L.cp[a]? = some s → nums[a]? = some r →
      Comp1 tab (L.cp.map fun s => s.vt.length) (numAt L.cst) K (0 + a) s r := by
    intro a s r ha hr
    rw [Nat.zero_add]
    have hm : (L.cp.map fun s => s.vt.length)[a]? = some s.vt.length := by rw [List.getElem?_map, ha]; rfl
    obtain ⟨r', r1, r2, r3⟩ := w2.row a _ hm
    rw [hr] at r1
    cases r1
    have hv := hp.verts s (List.mem_of_getElem? ha)
    refine ⟨by
      intro h
      rw [h] at hv
      simp at hv, r2, r3, ?_, hm, ?_, ?_, ?_⟩
    · intro v x k hx hkv
      have hvl := (List.getElem?_eq_some_iff.1 hx).1
      rw [r3 v hvl] at hkv
      cases hkv
      have h1 := hs a s v x ha hx
      unfold Fits triple
      simp only [List.length_append, List.length_cons]
      by_cases hz : numAt L.cst a v = 0
      · rw [if_pos hz]
        omega
      · rw [if_neg hz]
        rw [if_pos (numAt_zero_iff _ hp.tidy a v hz)] at h1
        have := dec_two _ (Nat.lt_of_le_of_lt (numAt_le L.cst a v) (by omega : L.cst.length < 30))
        omega
    · intro v _
      have := numAt_le L.cst a v
      unfold intMax
      omega
    · intro v _ hz
      obtain ⟨i, c, h1, h2, h3⟩ := numAt_pos hz
      rw [h1, hKdef i c h2]
      exact ⟨t2.at_ i c h2, hk c (List.mem_of_getElem? h2)⟩
    · intro v w _ _ hz hf he
      obtain ⟨i, c, h1, h2, h3⟩ := numAt_pos hz
      obtain ⟨j, d, g1, g2, g3⟩ := numAt_pos (cs := L.cst) (p := a) (v := (w : Int)) (by
        have : numAt L.cst a v = numAt L.cst a w := he
        omega)
      have hij : i = j := by
        have : numAt L.cst a v = numAt L.cst a w := he
        omega
      subst hij
      rw [h2] at g2
      cases g2
      rw [h1, hKdef i c h2] at hf
      have := (hp.inside c (List.mem_of_getElem? h2)).2.1 hf
      unfold Cov at h3 g3
      omega
  obtain ⟨cst', q1, q2, q3⟩ := readComps_ok tab (L.cp.map fun s => s.vt.length) (numAt L.cst) K _ hlT hnT R c4 L.cp nums 0 []
    hlen.symm hcomp (by simp [Tidy]) (by simp [Past])
  have hctxt : ∀ T, ctxt T [] 0 L.cp nums = ctxt T R 0 L.cp nums := by
    intro T
    cases hcp : L.cp with
    | nil => exact absurd hcp hp.comps
    | cons s ss =>
      cases hn : nums with
      | nil => rw [hn, hcp] at hlen; simp at hlen
      | cons r rs => rfl
  have hstop : Stops (ctxt (block ([str "Colors", str "(red", str "green", str "blue", str "alpha)"] :: ls0) ++ R) R 0 L.cp nums) := by
    cases hcp : L.cp with
    | nil => exact absurd hcp hp.comps
    | cons s ss =>
      cases hn : nums with
      | nil => rw [hn, hcp] at hlen; simp at hlen
      | cons r rs =>
        rw [ctxt_cons]
        exact (hcomp 0 s r (by rw [hcp]; rfl) (by rw [hn]; rfl)).stops _
  refine ⟨_, ⟨L.cp.map roundStrand, cst'⟩, w1, ?_, rfl, q2, ?_⟩
  · unfold shape
    rw [hctxt, hT, read_shape L hp _ hstop (.ok tab) (by intro w hw; rw [hw]; exact t1), okb]
    rw [q1, okb]
    simp only
    have := c5 [] Gap.nil
    rw [List.nil_append] at this
    rw [this, okb, strands_ok L.cp (fun s hs => (hp.verts s hs).1)]
  · intro p v
    apply Option.ext
    intro k
    rw [answer_iff q2, q3]
    simp only [D_nil, false_or, Nat.zero_add]
    rw [Option.map_eq_some_iff]
    constructor
    · rintro ⟨a, s, h1, rfl, h3, h4, h5, h6⟩
      obtain ⟨i, c, g1, g2, g3⟩ := numAt_pos h5
      refine ⟨(c.kind, c.vect), (answer_iff hp.tidy _ _ _).2 ⟨c, List.mem_of_getElem? g2, g3, rfl⟩, ?_⟩
      rw [← backKey_eq c (hk c (List.mem_of_getElem? g2)), ← hKdef i c g2, ← g1, h6]
    · rintro ⟨k0, h1, rfl⟩
      obtain ⟨c, hc, hcov, rfl⟩ := (answer_iff hp.tidy _ _ _).1 h1
      obtain ⟨i, hi⟩ := List.getElem?_of_mem hc
      have hz : numAt L.cst p v ≠ 0 := fun h => numAt_zero h c hc hcov
      obtain ⟨j, d, g1, g2, g3⟩ := numAt_pos hz
      have : i = j := cov_unique hp.tidy hi g2 hcov g3
      subst this
      rw [hi] at g2
      cases g2
      obtain ⟨i1, -, s, i2, i3⟩ := hp.inside c hc
      unfold Cov at hcov
      obtain ⟨e1, e2, e3⟩ := hcov
      rw [e1] at i2
      refine ⟨p, s, i2, rfl, by omega, by omega, hz, ?_⟩
      rw [g1, hKdef i c hi, backKey_eq c (hk c hc)]

/-- A vertex line starts with a word, cut off or not. -/
theorem Vect.vertLine_starts (v : V3 N) (k : Nat) (t : List Char) : Stops (vertLine v k ++ t) := by
  have hw := p16_word (N := N) v.1
  obtain ⟨c, u, hc⟩ : ∃ c u, triple N.p16 v = c :: u ∧ Solid c := by
    unfold triple
    cases h : N.p16 v.1 with
    | nil => exact absurd h hw.1
    | cons c u => exact ⟨c, _, rfl, hw.2 c (by rw [h]; simp)⟩
  right
  unfold vertLine
  simp only [hc.1, List.take_succ_cons, List.cons_append]
  split
  · exact ⟨c, _, rfl, hc.2⟩
  · exact ⟨c, _, rfl, hc.2⟩

/-- **C67, 30 constraints.** A curve with 30 constraints or more is written, and reading the file is undefined
behaviour: `plc_read` writes behind the end of its list of constraints. -/
theorem C67_thirty_constraints (L : Curve N) (hp : Proper L) (h30 : 30 ≤ L.cst.length) :
    ∃ txt, write L = .ok txt ∧ read N txt = .error (.fault .ub) := by
  obtain ⟨nums, w1, w2⟩ := write_ok L hp
  have hk : ∀ c ∈ L.cst, c.kind ≠ .unconstrained := fun c hc => (hp.tidy.2 c hc).2
  refine ⟨_, w1, ?_⟩
  unfold shape
  rw [read_shape L hp _ ?_ (.error (.fault .ub)) (by intro w hw; exact front_large L.cst h30 hk w hw), errb]
  cases hcp : L.cp with
  | nil => exact absurd hcp hp.comps
  | cons s ss =>
    obtain ⟨r, r1, r2, -⟩ := w2.row 0 s.vt.length (by rw [hcp]; rfl)
    cases hn : nums with
    | nil => rw [hn] at r1; cases r1
    | cons r' rs =>
      rw [hn] at r1
      cases r1
      rw [ctxt_cons]
      have hv := (hp.verts s (by rw [hcp]; simp)).1
      cases hx : s.vt with
      | nil => rw [hx] at hv; simp at hv
      | cons x vs =>
        cases hr : r with
        | nil => rw [hr, hx] at r2; simp at r2
        | cons k ks =>
          rw [vertLines, List.append_assoc]
          exact vertLine_starts _ _ _

/-- A component as `plc_fix_wrap` leaves it, with at least two vertices. -/
def Vect.Wrapped (s : Strand N) : Prop :=
  2 ≤ s.vt.length ∧ (s.isOpen = false → 3 ≤ s.vt.length) ∧
    some s.lo = (if s.isOpen then s.vt[1]? else s.vt[s.vt.length - 1]?) ∧
    some s.hi = (if s.isOpen then s.vt[s.vt.length - 2]? else s.vt[0]?)

/-- Numbers that survive printing. -/
def Vect.Exact (L : Curve N) : Prop :=
  (∀ s ∈ L.cp, (∀ x ∈ s.vt, N.r16 x.1 = x.1 ∧ N.r16 x.2.1 = x.2.1 ∧ N.r16 x.2.2 = x.2.2) ∧
    ∀ c ∈ s.clr, N.r16 c.1 = c.1 ∧ N.r16 c.2.1 = c.2.1 ∧ N.r16 c.2.2.1 = c.2.2.1 ∧ N.r16 c.2.2.2 = c.2.2.2) ∧
  ∀ c ∈ L.cst, (∀ x ∈ [c.vect.1.1, c.vect.1.2.1, c.vect.1.2.2, c.vect.2.1, c.vect.2.2.1, c.vect.2.2.2], N.r6 x = x) ∧
    (c.kind = .fixed → c.vect.2 = zero3 N) ∧ (c.kind = .plane → c.vect.2.2 = (N.zero, N.zero))

theorem Vect.roundStrand_same {s : Strand N} (hw : Wrapped s)
    (h1 : ∀ x ∈ s.vt, N.r16 x.1 = x.1 ∧ N.r16 x.2.1 = x.2.1 ∧ N.r16 x.2.2 = x.2.2)
    (h2 : ∀ c ∈ s.clr, N.r16 c.1 = c.1 ∧ N.r16 c.2.1 = c.2.1 ∧ N.r16 c.2.2.1 = c.2.2.1 ∧ N.r16 c.2.2.2 = c.2.2.2) :
    roundStrand s = s := by
  obtain ⟨w1, w2, w3, w4⟩ := hw
  have e1 : s.vt.map round16 = s.vt := by
    rw [List.map_congr_left (g := id), List.map_id]
    intro x hx
    obtain ⟨a, b, c⟩ := h1 x hx
    simp only [round16, a, b, c, id]
  have e2 : s.clr.map (fun c : Col N => (N.r16 c.1, N.r16 c.2.1, N.r16 c.2.2.1, N.r16 c.2.2.2)) = s.clr := by
    rw [List.map_congr_left (g := id), List.map_id]
    intro x hx
    obtain ⟨a, b, c, d⟩ := h2 x hx
    simp only [a, b, c, d, id]
  have e3 : (s.isOpen || decide (s.vt.length ≤ 2)) = s.isOpen := by
    cases ho : s.isOpen with
    | true => rfl
    | false =>
      have := w2 ho
      simp
      omega
  unfold roundStrand
  have e4 : ¬ s.vt.length = 1 := by omega
  simp only [e1, e2, e3, e4, if_false]
  obtain ⟨o, vt, clr, lo, hi⟩ := s
  simp only at w3 w4 ⊢
  congr 1
  · cases o
    · simp only [Bool.false_eq_true, if_false] at w3 ⊢
      rw [List.getD_eq_getElem?_getD, ← w3]
      rfl
    · simp only [if_true] at w3 ⊢
      rw [List.getD_eq_getElem?_getD, ← w3]
      rfl
  · cases o
    · simp only [Bool.false_eq_true, if_false] at w4 ⊢
      rw [List.getD_eq_getElem?_getD, ← w4]
      rfl
    · simp only [if_true] at w4 ⊢
      rw [List.getD_eq_getElem?_getD, ← w4]
      rfl

/-- **C67, exact.** If moreover the numbers survive printing and the components have at least two vertices and are
wrapped as `plc_fix_wrap` leaves them, the same components are read, and the same constraint on each vertex. -/
theorem C67_exact (L : Curve N) (hp : Proper L) (h29 : L.cst.length ≤ 29) (hs : ShortLines L)
    (hw : ∀ s ∈ L.cp, Wrapped s) (he : Exact L) :
    ∃ txt L', write L = .ok txt ∧ read N txt = .ok L' ∧ L'.cp = L.cp ∧
      ∀ p v, answer L'.cst p v = answer L.cst p v := by
  obtain ⟨txt, L', h1, h2, h3, -, h5⟩ := C67_round_trip L hp h29 hs
  refine ⟨txt, L', h1, h2, ?_, ?_⟩
  · rw [h3, List.map_congr_left (g := id), List.map_id]
    intro s hsm
    exact roundStrand_same (hw s hsm) (he.1 s hsm).1 (he.1 s hsm).2
  · intro p v
    rw [h5]
    cases ha : answer L.cst p v with
    | none => rfl
    | some k =>
      obtain ⟨c, hc, -, rfl⟩ := (answer_iff hp.tidy p v k).1 ha
      obtain ⟨e1, e2, e3⟩ := he.2 c hc
      have hu := (hp.tidy.2 c hc).2
      obtain ⟨kind, ⟨⟨x, y, z⟩, ⟨x', y', z'⟩⟩, cmp, vert, num⟩ := c
      simp only [List.mem_cons, List.not_mem_nil, or_false, forall_eq_or_imp, forall_eq] at e1
      obtain ⟨a1, a2, a3, a4, a5, a6⟩ := e1
      cases kind with
      | unconstrained => exact absurd rfl hu
      | fixed =>
        have := e2 rfl
        simp only at this
        simp only [Option.map_some, roundKey, round6, a1, a2, a3, this]
      | line => simp only [Option.map_some, roundKey, round6, a1, a2, a3, a4, a5, a6]
      | plane =>
        have := e3 rfl
        simp only [Prod.mk.injEq] at this
        obtain ⟨b1, b2⟩ := this
        simp only [Option.map_some, roundKey, round6, a1, a2, a3, a4, b1, b2]

/-- **C67, the keyword.** `plc_read` does not notice that the keyword `VECT` is missing. -/
theorem C67_keyword_ignored (c : Char) (t : List Char) (h1 : isSpace c = false) (h2 : c ≠ 'V') :
    read N (c :: t) = read N (str "VECT \n" ++ c :: t) := by
  have e : str "VECT \n" ++ c :: t = 'V' :: 'E' :: 'C' :: 'T' :: ' ' :: '\n' :: c :: t := rfl
  have e2 : str "VECT" = ['V', 'E', 'C', 'T'] := rfl
  have m1 : matchLit (str "VECT") (skip (c :: t)) = some (c :: t) := by
    rw [e2, skip, List.dropWhile_cons_of_neg (by rw [h1]; simp), matchLit, if_neg h2]
  have m2 : matchLit (str "VECT") (skip (str "VECT \n" ++ c :: t)) = some (c :: t) := by
    rw [e, e2, skip, List.dropWhile_cons_of_neg (by decide)]
    simp only [matchLit, if_true, skip]
    rw [List.dropWhile_cons_of_pos (by decide), List.dropWhile_cons_of_pos (by decide),
      List.dropWhile_cons_of_neg (by rw [h1]; simp)]
  unfold Vect.read
  rw [m1, m2]

/-! ## Examples -/

namespace Vect

/-- The first six characters of a word. -/
def six (x : { w : List Char // Word w }) : { w : List Char // Word w } :=
  ⟨x.1.take 6, by
    obtain ⟨w, hw⟩ := x
    refine ⟨?_, fun c hc => hw.2 c (List.mem_of_mem_take hc)⟩
    cases w with
    | nil => exact absurd rfl hw.1
    | cons c u => simp⟩

/-- The first word of a text. -/
def firstWord (t : List Char) : Option ({ w : List Char // Word w } × List Char) :=
  if h : Word (t.takeWhile (fun c => !isSpace c)) then
    some (⟨t.takeWhile (fun c => !isSpace c), h⟩, t.dropWhile (fun c => !isSpace c))
  else none

theorem firstWord_back (x : { w : List Char // Word w }) (c : Char) (t : List Char) (hc : isSpace c = true) :
    firstWord (x.1 ++ c :: t) = some (x, c :: t) := by
  obtain ⟨w, hw⟩ := x
  have h1 : (w ++ c :: t).takeWhile (fun c => !isSpace c) = w := by
    rw [List.takeWhile_append_of_pos (by intro d hd; rw [(hw.2 d hd).1]; rfl), List.takeWhile_cons_of_neg (by simp [hc]),
      List.append_nil]
  have h2 : (w ++ c :: t).dropWhile (fun c => !isSpace c) = c :: t := by
    rw [List.dropWhile_append_of_pos (by intro d hd; rw [(hw.2 d hd).1]; rfl), List.dropWhile_cons_of_neg (by simp [hc])]
  simp only [firstWord, h1, h2, hw, dite_true]

/-- Numbers as their texts: `%g` prints the first six characters. -/
def textFmt : NumFmt where
  F := { w : List Char // Word w }
  dec := inferInstance
  zero := ⟨['0'], by decide⟩
  same := fun a b => decide (a = b)
  p16 := fun x => x.1
  p6 := fun x => (six x).1
  r16 := id
  r6 := six
  scan := firstWord
  word16 := fun x => x.2
  word6 := fun x => (six x).2
  back16 := firstWord_back
  back6 := fun x => firstWord_back (six x)

/-- A number from its text. -/
def tx (s : String) (h : Word s.toList := by decide) : textFmt.F := ⟨s.toList, h⟩

/-- A closed triangle with a colour, two of its vertices on a line, and an open curve with one vertex fixed and two on
a plane. -/
def sample : Curve textFmt where
  cp := [⟨false, [(tx "0", tx "0.25", tx "-1e-05"), (tx "1", tx "2", tx "3"), (tx "7", tx "2", tx "9.125")],
      [(tx "1", tx "0", tx "0.5", tx "1")], (tx "7", tx "2", tx "9.125"), (tx "0", tx "0.25", tx "-1e-05")⟩,
    ⟨true, [(tx "5", tx "6", tx "7"), (tx "1", tx "2", tx "3"), (tx "1", tx "2", tx "4"), (tx "1", tx "2", tx "5")], [],
      (tx "1", tx "2", tx "3"), (tx "1", tx "2", tx "4")⟩]
  cst := [⟨.line, ((tx "1", tx "0", tx "0"), (tx "0.3333", tx "0", tx "0")), 0, 1, 2⟩,
    ⟨.fixed, ((tx "5", tx "6", tx "7"), zero3 textFmt), 1, 0, 1⟩,
    ⟨.plane, ((tx "0", tx "1", tx "0"), (tx "2", tx "0", tx "0")), 1, 1, 2⟩]

theorem sample_proper : Proper sample := by
  refine ⟨by simp [sample], by decide, by decide, by unfold Tidy; decide, ?_⟩
  intro c hc
  simp only [sample, List.mem_cons, List.not_mem_nil, or_false] at hc
  rcases hc with rfl | rfl | rfl
  · exact ⟨by decide, by decide, _, rfl, by decide⟩
  · exact ⟨by decide, by decide, _, rfl, by decide⟩
  · exact ⟨by decide, by decide, _, rfl, by decide⟩

theorem sample_short : ShortLines sample := by
  have h : ∀ s ∈ sample.cp, ∀ x ∈ s.vt,
      (textFmt.p16 x.1).length + (textFmt.p16 x.2.1).length + (textFmt.p16 x.2.2).length + 2 + 10 ≤ 79 := by decide
  intro p s v x h1 h2
  have := h s (List.mem_of_getElem? h1) x (List.mem_of_getElem? h2)
  split <;> omega

theorem sample_wrapped : ∀ s ∈ sample.cp, Wrapped s := by unfold Wrapped; decide

theorem sample_exact : Exact sample := by unfold Exact; decide

/-- The sample is read as it was. -/
example : ∃ txt L', write sample = .ok txt ∧ read textFmt txt = .ok L' ∧ L'.cp = sample.cp ∧
    ∀ p v, answer L'.cst p v = answer sample.cst p v :=
  C67_exact sample sample_proper (by decide) sample_short sample_wrapped sample_exact

/-- An open curve whose first vertex is held in place and has coordinates of 23 characters. -/
def longLine : Curve textFmt where
  cp := [⟨true, [(tx "-1.234567890123456e-100", tx "-1.234567890123456e-100", tx "-1.234567890123456e-100"),
      (tx "1", tx "2", tx "3")], [], (tx "1", tx "2", tx "3"),
      (tx "-1.234567890123456e-100", tx "-1.234567890123456e-100", tx "-1.234567890123456e-100")⟩]
  cst := [⟨.fixed, ((tx "5", tx "6", tx "7"), zero3 textFmt), 0, 0, 1⟩]

/-- An open curve of twelve vertices, each held in another place; the coordinates of the last have 23, 23 and 22
characters. -/
def longTwelve : Curve textFmt where
  cp := [⟨true, List.replicate 11 (tx "1", tx "2", tx "3") ++
      [(tx "-1.234567890123456e-100", tx "-1.234567890123456e-100", tx "1.234567890123456e-100")], [],
      (tx "1", tx "2", tx "3"), (tx "1", tx "2", tx "3")⟩]
  cst := [(tx "0", 0), (tx "1", 1), (tx "2", 2), (tx "3", 3), (tx "4", 4), (tx "5", 5), (tx "6", 6), (tx "7", 7),
    (tx "8", 8), (tx "9", 9), (tx "10", 10), (tx "11", 11)].map
      fun (a : textFmt.F × Int) => ⟨.fixed, ((a.1, tx "0", tx "0"), zero3 textFmt), 0, a.2, 1⟩

theorem longLine_proper : Proper longLine := by
  refine ⟨by simp [longLine], by decide, by decide, by unfold Tidy; decide, ?_⟩
  have h : ∀ c ∈ longLine.cst, 0 ≤ c.vert ∧ (c.kind = .fixed → c.num = 1) ∧ c.cmp = 0 ∧ c.vert + c.num ≤ 2 := by decide
  intro c hc
  obtain ⟨h1, h2, h3, h4⟩ := h c hc
  refine ⟨h1, h2, _, by rw [h3]; rfl, ?_⟩
  exact h4

theorem longTwelve_proper : Proper longTwelve := by
  refine ⟨by simp [longTwelve], by decide, by decide, by unfold Tidy; decide, ?_⟩
  have h : ∀ c ∈ longTwelve.cst, 0 ≤ c.vert ∧ (c.kind = .fixed → c.num = 1) ∧ c.cmp = 0 ∧ c.vert + c.num ≤ 12 := by
    decide
  intro c hc
  obtain ⟨h1, h2, h3, h4⟩ := h c hc
  refine ⟨h1, h2, _, by rw [h3]; rfl, ?_⟩
  exact h4

/-- An open curve of 31 vertices, the first 30 held in place. -/
def thirty : Curve textFmt where
  cp := [⟨true, List.replicate 31 (tx "1", tx "2", tx "3"), [], (tx "1", tx "2", tx "3"), (tx "1", tx "2", tx "3")⟩]
  cst := (List.range 30).map fun i => ⟨.fixed, ((tx "1", tx "2", tx "3"), zero3 textFmt), 0, i, 1⟩

theorem thirty_proper : Proper thirty := by
  refine ⟨by simp [thirty], by decide, by decide, by unfold Tidy; decide +kernel, ?_⟩
  have h : ∀ c ∈ thirty.cst, 0 ≤ c.vert ∧ (c.kind = .fixed → c.num = 1) ∧ c.cmp = 0 ∧ c.vert + c.num ≤ 31 := by
    decide +kernel
  intro c hc
  obtain ⟨h1, h2, h3, h4⟩ := h c hc
  refine ⟨h1, h2, _, by rw [h3]; rfl, ?_⟩
  exact h4

example : ∃ txt, write thirty = .ok txt ∧ read textFmt txt = .error (.fault .ub) :=
  C67_thirty_constraints thirty thirty_proper (by decide)

example (t : List Char) : Vect.read textFmt ('1' :: t) = Vect.read textFmt (str "VECT \n" ++ '1' :: t) :=
  C67_keyword_ignored '1' t (by decide) (by decide)

/-- What `plc_read` makes of what `plc_write` has written. -/
def again (L : Curve N) : Option (Except Stop (Curve N)) :=
  match write L with
  | .ok t => some (Vect.read N t)
  | .error _ => none

end Vect

/-- **C67, long lines.** Without `ShortLines` the claim is false: a vertex line is cut off after 79 characters, and with
it the number of the constraint. A file that `plc_write` has written is rejected. -/
theorem C67_long_line_rejected :
    Proper longLine ∧ longLine.cst.length ≤ 29 ∧ again longLine = some (.error (.err .badCstNum)) := by
  refine ⟨longLine_proper, by decide, ?_⟩
  have h : (match again longLine with
    | some (.error e) => decide (e = .err .badCstNum)
    | _ => false) = true := by decide +kernel
  revert h
  cases again longLine with
  | none => intro h; cases h
  | some r =>
    cases r with
    | ok a => intro h; cases h
    | error e => intro h; rw [of_decide_eq_true h]

/-- **C67, long lines, silently.** Cutting off the line can also leave the first digit of the number: the curve is read,
and its last vertex is held in the place of the first. -/
theorem C67_long_line_other_constraint :
    Proper longTwelve ∧ longTwelve.cst.length ≤ 29 ∧
      ∃ L', again longTwelve = some (.ok L') ∧
        answer longTwelve.cst 0 11 = some (.fixed, (tx "11", tx "0", tx "0"), zero3 textFmt) ∧
        answer L'.cst 0 11 = some (.fixed, (tx "0", tx "0", tx "0"), zero3 textFmt) := by
  refine ⟨longTwelve_proper, by decide, ?_⟩
  have h : (match again longTwelve with
    | some (.ok L') => decide (answer L'.cst 0 11 = some (.fixed, (tx "0", tx "0", tx "0"), zero3 textFmt))
    | _ => false) = true := by decide +kernel
  revert h
  cases again longTwelve with
  | none => intro h; cases h
  | some r =>
    cases r with
    | error a => intro h; cases h
    | ok L' => intro h; exact ⟨L', rfl, by decide +kernel, of_decide_eq_true h⟩

end Plc
