import Verif.Proofs.VectVerts
import Verif.Spec.Vect

/-! # Components, colours and headers in VECT files -/

namespace Plc.Vect

open Plc.Io Plc.Cst

variable {N : NumFmt}

/-! ## Components -/

/-- The text from a component on, its headline read. -/
def ctxt (T : List Char) (R : List Char) : Nat → List (Strand N) → List (List Nat) → List Char
  | i, s :: ss, r :: rs => vertLines s.vt r ++ (vertBlock (i + 1) ss rs ++ T)
  | _, _, _ => R

/-- The words of the headline of a component. -/
def headWords (i : Nat) : List (List Char) := [str "Component", dec i]

theorem head_eq (i : Nat) : str "# Component " ++ dec i ++ str "\n" = cline (headWords i) := by
  simp [cline, headWords, sep]
  rfl

theorem vertBlock_nil (i : Nat) (rs : List (List Nat)) : vertBlock i ([] : List (Strand N)) rs = [] := by
  cases rs <;> rfl

theorem vertBlock_cons (i : Nat) (s : Strand N) (ss : List (Strand N)) (r : List Nat) (rs : List (List Nat)) :
    vertBlock i (s :: ss) (r :: rs) = cline (headWords i) ++ (vertLines s.vt r ++ vertBlock (i + 1) ss rs) :=
  (congrArg (fun x => x ++ vertLines s.vt r ++ vertBlock (i + 1) ss rs) (head_eq i)).trans (List.append_assoc _ _ _)

theorem colBlock_cons (i : Nat) (s : Strand N) (ss : List (Strand N)) :
    colBlock i (s :: ss) = cline (headWords i) ++ (s.clr.flatMap colLine ++ colBlock (i + 1) ss) :=
  (congrArg (fun x => x ++ s.clr.flatMap colLine ++ colBlock (i + 1) ss) (head_eq i)).trans (List.append_assoc _ _ _)

theorem ctxt_nil (T R : List Char) (i : Nat) (rs : List (List Nat)) : ctxt T R i ([] : List (Strand N)) rs = R := by
  cases rs <;> rfl

theorem ctxt_cons (T R : List Char) (i : Nat) (s : Strand N) (ss : List (Strand N)) (r : List Nat) (rs : List (List Nat)) :
    ctxt T R i (s :: ss) (r :: rs) = vertLines s.vt r ++ (vertBlock (i + 1) ss rs ++ T) := rfl

theorem head_word (i : Nat) : ∀ w ∈ headWords i, Word w := by
  intro w hw
  simp only [headWords, List.mem_cons, List.not_mem_nil, or_false] at hw
  rcases hw with rfl | rfl
  · decide
  · exact dec_word i

theorem head_lines (i : Nat) : Lines [headWords i] := by
  intro ws hws
  rw [List.mem_singleton] at hws
  subst hws
  exact ⟨by simp [headWords], head_word i⟩

theorem head_noTail (p : List Char) (c : Char) (hc : c ∈ p) (hd : isDig c = false) (hp : p ∉ (str "Component").tails) (i : Nat) :
    ∀ w ∈ headWords i, NoTail p w := by
  intro w hw
  simp only [headWords, List.mem_cons, List.not_mem_nil, or_false] at hw
  rcases hw with rfl | rfl
  · exact noTail_of_tails hp
  · exact noTail_dec hc hd i

theorem head_noCst (i : Nat) : NoCst [headWords i] := by
  intro w hw
  have : w ∈ headWords i := by simpa using hw
  exact head_noTail (str "Cst:") 'C' (by decide) (by decide) (by decide) i w this

/-- What is known of a component and its row of numbers. -/
structure Comp1 (tab : List (Entry N)) (nvs : List Nat) (f : Nat → Int → Nat) (K : Nat → Kind × VV N) (i : Nat)
    (s : Strand N) (r : List Nat) : Prop where
  ne : s.vt ≠ []
  len : r.length = s.vt.length
  row : ∀ v : Nat, v < s.vt.length → r[v]? = some (f i v)
  fits : ∀ (v : Nat) (x : V3 N) (k : Nat), s.vt[v]? = some x → r[v]? = some k → Fits x k
  keys : Keys tab nvs i s.vt.length (fun v => f i v) K

theorem vertLine_stops {v : V3 N} {k : Nat} (h : Fits v k) (t : List Char) : Stops (vertLine v k ++ t) := by
  by_cases hz : k = 0
  · subst hz
    rw [vertLine_zero h, List.append_assoc]
    exact triple_word _ _
  · rw [vertLine_pos hz h, List.append_assoc]
    exact triple_word _ _

theorem Comp1.stops {tab : List (Entry N)} {nvs : List Nat} {f : Nat → Int → Nat} {K : Nat → Kind × VV N} {i : Nat}
    {s : Strand N} {r : List Nat} (h : Comp1 tab nvs f K i s r) (t : List Char) : Stops (vertLines s.vt r ++ t) := by
  have hl := h.len
  have hf := h.fits
  have hn := h.ne
  cases hv : s.vt with
  | nil => exact absurd hv hn
  | cons x vs =>
    cases r with
    | nil => rw [hv] at hl; simp at hl
    | cons k ks =>
      rw [vertLines, List.append_assoc]
      exact vertLine_stops (hf 0 x k (by rw [hv]; rfl) rfl) _

theorem readComps_ok (tab : List (Entry N)) (nvs : List Nat) (f : Nat → Int → Nat) (K : Nat → Kind × VV N)
    (ls : List (List (List Char))) (hl : Lines ls) (hn : NoCst ls) (R : List Char) (hR : Stops R) :
    ∀ (ss : List (Strand N)) (rs : List (List Nat)) (i : Nat) (cst : List (Cst (VV N))),
    ss.length = rs.length →
    (∀ (a : Nat) (s : Strand N) (r : List Nat), ss[a]? = some s → rs[a]? = some r → Comp1 tab nvs f K (i + a) s r) →
    Tidy cst → Past i 0 cst →
    ∃ cst', readComps tab nvs i (ss.map fun s => s.vt.length) cst (ctxt (block ls ++ R) R i ss rs) =
        .ok (ss.map (fun s => s.vt.map r3), cst', R) ∧ Tidy cst' ∧
      ∀ p v k, D cst' p v k ↔ D cst p v k ∨
        ∃ a s, ss[a]? = some s ∧ p = i + a ∧ 0 ≤ v ∧ v < (s.vt.length : Int) ∧ f p v ≠ 0 ∧ K (f p v) = k
  | [], rs, i, cst, _, _, ht, _ => ⟨cst, by rw [ctxt_nil]; rfl, ht, by simp⟩
  | s :: ss, [], _, _, h, _, _, _ => by simp at h
  | s :: ss, r :: rs, i, cst, hlen, hall, ht, hp => by
    simp only [List.length_cons] at hlen
    have h0 := hall 0 s r rfl rfl
    rw [Nat.add_zero] at h0
    have hall' : ∀ (a : Nat) (s : Strand N) (r : List Nat), ss[a]? = some s → rs[a]? = some r →
        Comp1 tab nvs f K (i + 1 + a) s r := by
      intro a s r h1 h2
      have := hall (a + 1) s r h1 h2
      rwa [show i + (a + 1) = i + 1 + a by omega] at this
    -- what is behind the vertices of this component
    have hsplit : ∃ ls', vertBlock (i + 1) ss rs ++ (block ls ++ R) = block ls' ++ ctxt (block ls ++ R) R (i + 1) ss rs ∧
        Lines ls' ∧ NoCst ls' ∧ Stops (ctxt (block ls ++ R) R (i + 1) ss rs) := by
      cases ss with
      | nil =>
        exact ⟨ls, by rw [vertBlock_nil, ctxt_nil]; rfl, hl, hn, by rw [ctxt_nil]; exact hR⟩
      | cons s1 ss =>
        cases rs with
        | nil => simp at hlen
        | cons r1 rs =>
          refine ⟨[headWords (i + 1)], ?_, head_lines _, head_noCst _, ?_⟩
          · rw [vertBlock_cons, ctxt_cons]
            simp only [block, List.flatMap_cons, List.flatMap_nil, List.append_nil, List.append_assoc]
          · rw [ctxt_cons]
            exact (hall' 0 s1 r1 rfl rfl).stops _
    obtain ⟨ls', e1, e2, e3, e4⟩ := hsplit
    obtain ⟨cst1, v1, v2, v3, v4⟩ := readVerts_ok h0.keys ls' e2 e3 _ e4 s.vt r 0 0 0 cst h0.len.symm (by omega)
      (by
        intro a k h
        have ha := (List.getElem?_eq_some_iff.1 h).1
        rw [h0.len] at ha
        rw [h0.row a ha] at h
        cases h
        simp) h0.fits (Nat.le_refl _) (by simp) (by intro v a b; omega) ht hp
    obtain ⟨cst', c1, c2, c3⟩ := readComps_ok tab nvs f K ls hl hn R hR ss rs (i + 1) cst1 (by omega) hall' v2 v3.next
    refine ⟨cst', ?_, c2, ?_⟩
    · rw [List.map_cons, readComps, ctxt_cons, e1]
      have hv : vtxt ls' (ctxt (block ls ++ R) R (i + 1) ss rs) s.vt r =
          vertLines s.vt r ++ (block ls' ++ ctxt (block ls ++ R) R (i + 1) ss rs) := by
        rw [vtxt, if_neg h0.ne]
      rw [hv] at v1
      have v1' : readVerts tab nvs i s.vt.length 0 0 0 0 cst
          (vertLines s.vt r ++ (block ls' ++ ctxt (block ls ++ R) R (i + 1) ss rs)) = _ := v1
      rw [v1', okb]
      simp only
      rw [c1, okb]
      rfl
    · intro p v k
      rw [c3, v4]
      constructor
      · rintro ((h | ⟨a, b, c, d, e⟩) | ⟨a, s', h1, h2, h3⟩)
        · exact Or.inl h
        · refine Or.inr ⟨0, s, rfl, by omega, by omega, c, ?_⟩
          subst a
          rw [Int.toNat_of_nonneg (by omega)] at d e
          exact ⟨d, e⟩
        · exact Or.inr ⟨a + 1, s', h1, by omega, h3⟩
      · rintro (h | ⟨a, s', h1, h2, h3, h4, h5, h6⟩)
        · exact Or.inl (Or.inl h)
        · cases a with
          | zero =>
            have : s = s' := by simpa using h1
            subst this
            refine Or.inl (Or.inr ⟨by omega, by omega, h4, ?_⟩)
            rw [Int.toNat_of_nonneg h3]
            have : p = i := by omega
            subst this
            exact ⟨h5, h6⟩
          | succ a => exact Or.inr ⟨a, s', h1, by omega, h3, h4, h5, h6⟩

/-! ## Colours -/

/-- A colour as read back. -/
def rc (c : Col N) : Col N := (N.r16 c.1, N.r16 c.2.1, N.r16 c.2.2.1, N.r16 c.2.2.2)

theorem readCols_ok : ∀ (cs : List (Col N)) (g t : List Char), Gap g → cs ≠ [] →
    readCols N cs.length (g ++ (cs.flatMap colLine ++ t)) = .ok (cs.map rc, '\n' :: t)
  | [], _, _, _, h => absurd rfl h
  | c :: cs, g, t, hg, _ => by
    have e : g ++ ((c :: cs).flatMap colLine ++ t) =
        g ++ (triple N.p16 (c.1, c.2.1, c.2.2.1) ++ ' ' :: (N.p16 c.2.2.2 ++ '\n' :: (cs.flatMap colLine ++ t))) := by
      simp [colLine, triple]
      rfl
    rw [e, List.length_cons, readCols, scan3_16 _ hg _ (by decide), okb]
    simp only
    have := scanDbl_16 (N := N) .badColor (Gap.space (c := ' ') (by decide)) c.2.2.2 (c := '\n') (by decide)
      (cs.flatMap colLine ++ t)
    rw [List.singleton_append] at this
    rw [this, okb]
    simp only
    cases cs with
    | nil => rfl
    | cons d cs =>
      have := readCols_ok (d :: cs) ['\n'] t (Gap.space (by decide)) (by simp)
      rw [List.singleton_append] at this
      rw [this, okb]
      rfl

/-- The text of the colours starts with comment lines; they may be read or not before the colours are. -/
theorem cols_ok : ∀ (ss : List (Strand N)) (i : Nat), ∃ ls R, colBlock i ss = block ls ++ R ∧ Lines ls ∧ NoCst ls ∧ Stops R ∧
    ∀ g, Gap g → readAllCols N (ss.map fun s => s.clr.length) (g ++ R) = .ok (ss.map fun s => s.clr.map rc)
  | [], i => ⟨[], [], rfl, by simp [Lines], by simp [NoCst], Or.inl rfl, fun g _ => rfl⟩
  | s :: ss, i => by
    obtain ⟨ls, R, h1, h2, h3, h4, h5⟩ := cols_ok ss (i + 1)
    have e := colBlock_cons i s ss
    cases hc : s.clr with
    | nil =>
      refine ⟨headWords i :: ls, R, ?_, ?_, ?_, h4, ?_⟩
      · rw [e, hc, h1]
        simp [block]
      · intro ws hws
        rcases List.mem_cons.1 hws with rfl | hws
        · exact head_lines i _ (by simp)
        · exact h2 ws hws
      · intro w hw
        rw [List.flatten_cons, List.mem_append] at hw
        rcases hw with hw | hw
        · exact head_noCst i w (by simpa using hw)
        · exact h3 w hw
      · intro g hg
        rw [List.map_cons, hc]
        show readAllCols N (0 :: _) _ = _
        rw [readAllCols, readCols, okb, h5 g hg]
        simp [okb, hc]
    | cons c cs =>
      refine ⟨[headWords i], s.clr.flatMap colLine ++ colBlock (i + 1) ss, by rw [e]; simp [block], head_lines i, head_noCst i, ?_, ?_⟩
      · rw [hc, List.flatMap_cons, colLine, List.append_assoc, List.append_assoc]
        exact (p16_word _).stops _
      · intro g hg
        rw [List.map_cons, readAllCols, readCols_ok s.clr g _ hg (by rw [hc]; simp), okb]
        simp only
        have := h5 ('\n' :: block ls) (by
          have := Gap.append (Gap.space (c := '\n') (by decide)) (Gap.block ls h2)
          rwa [List.singleton_append] at this)
        rw [h1]
        rw [List.cons_append] at this
        rw [this, okb]
        rw [List.map_cons, hc]

/-! ## Headers -/

theorem scanInts_ok (e : Err) : ∀ (xs : List Int) (g t : List Char), Gap g → xs ≠ [] → (∀ x ∈ xs, x.natAbs ≤ intMax) →
    scanInts e xs.length (g ++ (xs.flatMap (fun x => decI x ++ str " ") ++ t)) = .ok (xs, ' ' :: t)
  | [], _, _, _, h, _ => absurd rfl h
  | x :: xs, g, t, hg, _, hx => by
    have e' : g ++ ((x :: xs).flatMap (fun x => decI x ++ str " ") ++ t) =
        g ++ (decI x ++ ' ' :: (xs.flatMap (fun x => decI x ++ str " ") ++ t)) := by
      rw [List.flatMap_cons, List.append_assoc, List.append_assoc]
      rfl
    rw [e', List.length_cons, scanInts, scanInt_decI e hg (hx x (by simp)) (by decide), okb]
    simp only
    cases xs with
    | nil => rfl
    | cons y xs =>
      have := scanInts_ok e (y :: xs) [' '] t (Gap.space (by decide)) (by simp) (fun z hz => hx z (by simp [hz]))
      rw [List.singleton_append] at this
      rw [this, okb]

theorem readCsts_pre (ws : List (List Char)) : ∀ (pre : List (List Char)) (f : Nat) (tab : List (Entry N)),
    (∀ w ∈ pre, Word w ∧ NoTail (str "Constraint") w) →
    readCsts (f + 1) tab (outw (pre ++ ws)) = readCsts (f + 1) tab (outw ws) := by
  intro pre
  induction pre with
  | nil => intro f tab _; rfl
  | cons w pre ih =>
    intro f tab h
    rw [← ih f tab (fun x hx => h x (by simp [hx]))]
    have := strstr_pass (p := str "Constraint") (by decide) (by decide) (outw (pre ++ ws)) w
      (fun c hc => ((h w (by simp)).1.2 c hc).ne_blank) (h w (by simp)).2
    have e : outw (w :: pre ++ ws) = w ++ ' ' :: outw (pre ++ ws) := rfl
    rw [readCsts, readCsts, e, show str "Constraint " = str "Constraint" ++ [' '] by rfl, this]

theorem outw_length : ∀ ws : List (List Char), ws.length ≤ (outw ws).length
  | [] => Nat.le_refl _
  | w :: ws => by
    have := outw_length ws
    simp [outw]
    omega

theorem defWords_length : ∀ (k : Nat) (cs : List (Cst (VV N))), cs.length ≤ (defWords k cs).flatten.length
  | _, [] => Nat.le_refl _
  | k, c :: cs => by
    have := defWords_length (k + 1) cs
    rw [defWords, List.flatten_cons, List.length_append]
    simp only [cstWords, List.length_cons]
    omega

theorem newOk_ok : ∀ (ss : List (Strand N)), (∀ s ∈ ss, 1 ≤ s.vt.length ∧ s.clr.length ≤ s.vt.length) →
    newOk (ss.map fun s => s.vt.length) (ss.map fun s => (s.clr.length : Int)) = true
  | [], _ => rfl
  | s :: ss, h => by
    have h1 := h s (by simp)
    have := newOk_ok ss (fun x hx => h x (by simp [hx]))
    simp only [List.map_cons, newOk, this, Bool.and_eq_true, decide_eq_true_eq, and_true]
    omega

theorem strands_ok : ∀ (ss : List (Strand N)), (∀ s ∈ ss, 1 ≤ s.vt.length) →
    (strands (ss.map signedNv) (ss.map fun s => s.vt.map r3) (ss.map fun s => s.clr.map rc)).map fixWrap = ss.map roundStrand
  | [], _ => rfl
  | s :: ss, h => by
    have h1 := h s (by simp)
    have := strands_ok ss (fun x hx => h x (by simp [hx]))
    simp only [List.map_cons, strands, this]
    congr 1
    have ho : decide (0 ≤ signedNv s) = s.isOpen := by
      unfold signedNv
      cases s.isOpen
      · simp only [Bool.false_eq_true, if_false, decide_eq_false_iff_not]
        omega
      · simp
    rw [ho]
    unfold fixWrap roundStrand
    have e3 : decide (s.vt.length < 3) = decide (s.vt.length ≤ 2) := by
      rw [decide_eq_decide]
      omega
    simp only [List.length_map, e3]
    have er : s.vt.map r3 = s.vt.map round16 := rfl
    rw [er]
    by_cases hl : s.vt.length = 1
    · have : (s.isOpen || decide (s.vt.length ≤ 2)) = true := by simp [hl]
      rw [this]
      simp only [if_true, if_pos hl]
      rfl
    · cases ho' : (s.isOpen || decide (s.vt.length ≤ 2)) with
      | true =>
        simp only [if_true, if_neg hl]
        rfl
      | false =>
        simp only [Bool.false_eq_true, if_false, if_neg hl]
        have : s.isOpen = false := by
          cases hx : s.isOpen with
          | false => rfl
          | true => rw [hx] at ho'; simp at ho'
        rw [this]
        rfl

end Plc.Vect
