import Verif.Proofs.VectText

/-! # Constraint definitions in VECT files -/

namespace Plc.Vect

open Plc.Io Plc.Cst

variable {N : NumFmt}

/-- The word naming a kind. -/
def kindWord : Kind → List Char
  | .fixed => str "Fixed"
  | .line => str "Line"
  | _ => str "Plane"

/-- The numbers printed for a constraint. -/
def numsOf (c : Cst (VV N)) : List N.F :=
  match c.kind with
  | .fixed => [c.vect.1.1, c.vect.1.2.1, c.vect.1.2.2]
  | .line => [c.vect.1.1, c.vect.1.2.1, c.vect.1.2.2, c.vect.2.1, c.vect.2.2.1, c.vect.2.2.2]
  | _ => [c.vect.1.1, c.vect.1.2.1, c.vect.1.2.2, c.vect.2.1]

/-- The words of the line defining a constraint. -/
def cstWords (k : Nat) (c : Cst (VV N)) : List (List Char) :=
  str "Constraint" :: dec k :: kindWord c.kind :: (numsOf c).map N.p6

/-- Kind and vectors of a constraint as read back. -/
def backKey (c : Cst (VV N)) : Kind × VV N := (c.kind, vectsOf N ((numsOf c).map N.r6))

theorem cstLine_eq (k : Nat) (c : Cst (VV N)) (h : c.kind ≠ .unconstrained) : cstLine k c = cline (cstWords k c) := by
  obtain ⟨kind, vect, cmp, vert, num⟩ := c
  cases kind with
  | unconstrained => exact absurd rfl h
  | fixed =>
    simp [cstLine, cstWords, cline, sep, kindWord, numsOf, triple]
    rfl
  | line =>
    simp [cstLine, cstWords, cline, sep, kindWord, numsOf, triple]
    rfl
  | plane =>
    simp [cstLine, cstWords, cline, sep, kindWord, numsOf, triple]
    rfl

theorem kindWord_word (k : Kind) : Word (kindWord k) := by cases k <;> decide

theorem cstWords_word (k : Nat) (c : Cst (VV N)) : ∀ w ∈ cstWords k c, Word w := by
  intro w hw
  simp only [cstWords, List.mem_cons, List.mem_map] at hw
  rcases hw with rfl | rfl | rfl | ⟨x, -, rfl⟩
  · decide
  · exact dec_word k
  · exact kindWord_word _
  · exact p6_word x

theorem kindOf_word (c : Cst (VV N)) (h : c.kind ≠ .unconstrained) :
    kindOf (kindWord c.kind) = some (c.kind, (numsOf c).length) := by
  obtain ⟨kind, vect, cmp, vert, num⟩ := c
  cases kind with
  | unconstrained => exact absurd rfl h
  | fixed => rfl
  | line => rfl
  | plane => rfl

theorem numsOf_ne (c : Cst (VV N)) : numsOf c ≠ [] := by
  obtain ⟨kind, vect, cmp, vert, num⟩ := c
  cases kind <;> simp [numsOf]

/-- `cst_list` after the check that number `k` has room. -/
def grow (k : Nat) (tab : List (Entry N)) : List (Entry N) :=
  if newLen k tab.length = tab.length then tab else resize tab (newLen k tab.length)

theorem outw_cst (k : Nat) (c : Cst (VV N)) (t : List Char) :
    outw (cstWords k c) ++ t =
      str "Constraint" ++ ' ' :: (dec k ++ ' ' :: (kindWord c.kind ++ ' ' :: (outw ((numsOf c).map N.p6) ++ t))) := by
  simp [cstWords, outw]

theorem readCst_gen (tab : List (Entry N)) (k : Nat) (W K : List Char) (hW : Word W) (hK : Word K) (kd : Kind)
    (xs : List N.F) (hx : xs ≠ []) (hkd : kindOf K = some (kd, xs.length)) (k1 : 1 ≤ k)
    (k2 : k ≤ intMax) (T : List Char) (hT : ∀ c ∈ T, c ≠ '\x00') :
    readCst tab (W ++ ' ' :: (dec k ++ ' ' :: (K ++ ' ' :: (outw (xs.map N.p6) ++ T)))) =
      if k < (grow k tab).length then .ok ((grow k tab).set k (some (kd, vectsOf N (xs.map N.r6))), T)
      else .error (.fault .ub) := by
  have hall : ∀ w ∈ xs.map N.p6, Word w := by
    intro w hw
    obtain ⟨x, -, rfl⟩ := List.mem_map.1 hw
    exact p6_word x
  have hnn : ∀ d ∈ outw (xs.map N.p6) ++ T, d ≠ '\x00' := by
    intro d hd
    rcases List.mem_append.1 hd with hd | hd
    · exact outw_no_nul _ hall d hd
    · exact hT d hd
  have hs : scanD (dec k) = .ok (some ((k : Int), [])) := by
    have := scanD_decI (n := (k : Int)) (r := []) (by simpa using k2) (by intro c t h; cases h)
    rwa [decI_nat, List.append_nil] at this
  have hg : (if newLen (Int.toNat (k : Int)) tab.length = tab.length then tab
      else resize tab (newLen (Int.toNat (k : Int)) tab.length)) = grow k tab := rfl
  unfold readCst
  rw [strtok_word [] hW]
  simp only [need, okb]
  rw [strtok_word _ (dec_word k)]
  simp only [okb]
  rw [hs]
  simp only [lift, okb]
  rw [if_neg (by omega), hg, strtok_word _ hK]
  simp only [okb]
  rw [hkd]
  simp only [okb]
  rw [show Int.toNat (k : Int) = k from rfl]
  by_cases hlt : k < (grow k tab).length
  · obtain ⟨a, ha⟩ : ∃ a, (grow k tab)[k]? = some a := ⟨_, List.getElem?_eq_getElem hlt⟩
    rw [rd_ok ha]
    simp only [okb]
    rw [cstr_todo (by simp; omega) hnn]
    simp only [okb]
    rw [sscanDbls_6 _ _ hx]
    simp only [okb]
    rw [wr, if_pos hlt]
    simp only [okb]
    obtain ⟨p', hp'⟩ := stepOver_words (xs.map N.p6)
      ([] ++ W ++ ['\x00'] ++ dec k ++ ['\x00'] ++ K ++ ['\x00']) T
      (W.length + 1 + ((dec k).length + 1) + (K.length + 1)) hall (by simp; omega)
    rw [List.length_map] at hp'
    rw [hp']
    simp only [okb]
    rw [cstr_todo rfl hT]
    simp only [okb]
    rw [if_pos hlt]
  · have : (grow k tab)[k]? = none := by simpa using hlt
    rw [rd, this, if_neg hlt]
    rfl

theorem readCst_room (tab : List (Entry N)) (k : Nat) (c : Cst (VV N)) (hk : c.kind ≠ .unconstrained) (k1 : 1 ≤ k)
    (k2 : k ≤ intMax) (ws : List (List Char)) (hws : ∀ w ∈ ws, Word w) :
    readCst tab (outw (cstWords k c ++ ws)) =
      if k < (grow k tab).length then .ok ((grow k tab).set k (some (backKey c)), outw ws)
      else .error (.fault .ub) := by
  rw [outw_append, outw_cst, readCst_gen tab k _ _ (by decide) (kindWord_word _) _ _ (numsOf_ne c) (kindOf_word c hk) k1 k2 _
    (outw_no_nul _ hws)]
  rfl

/-- The words of the lines defining constraints, numbered from `k` on. -/
def defWords : Nat → List (Cst (VV N)) → List (List (List Char))
  | _, [] => []
  | k, c :: cs => cstWords k c :: defWords (k + 1) cs

theorem defWords_lines (k : Nat) (cs : List (Cst (VV N))) : Lines (defWords k cs) := by
  induction cs generalizing k with
  | nil => simp [Lines, defWords]
  | cons c cs ih =>
    intro ws hws
    rcases List.mem_cons.1 hws with rfl | hws
    · exact ⟨by simp [cstWords], cstWords_word k c⟩
    · exact ih (k + 1) ws hws

theorem flatten_word {ls : List (List (List Char))} (h : Lines ls) : ∀ w ∈ ls.flatten, Word w := by
  intro w hw
  obtain ⟨ws, h1, h2⟩ := List.mem_flatten.1 hw
  exact (h ws h1).2 w h2

/-- What `cst_list` looks like when the constraints `done` have been read, in this order. -/
structure Table (tab : List (Entry N)) (done : List (Cst (VV N))) : Prop where
  len : tab.length = if done.length ≤ 1 then 2 else 30
  at_ : ∀ i c, done[i]? = some c → tab[i + 1]? = some (some (backKey c))

theorem grow_small (tab : List (Entry N)) (done : List (Cst (VV N))) (h : Table tab done) (hd : done.length + 1 ≤ 29) :
    (grow (done.length + 1) tab).length = (if done.length = 0 then 2 else 30) ∧
      ∀ i, i < tab.length → (grow (done.length + 1) tab)[i]? = tab[i]? := by
  have hl := h.len
  unfold grow newLen resize
  by_cases h0 : done.length = 0
  · rw [if_pos (by omega)] at hl
    rw [h0, hl]
    simp [hl]
  · by_cases h1 : done.length = 1
    · rw [if_pos (by omega)] at hl
      rw [h1, hl]
      refine ⟨by simp [hl], ?_⟩
      intro i hi
      simp only [Nat.reduceAdd, Nat.reduceMod, Nat.reduceMul, Nat.reduceGT, if_true]
      rw [if_neg (by decide), List.getElem?_append_left (by simp; omega), List.getElem?_take, if_pos (by omega)]
    · rw [if_neg (by omega)] at hl
      have : (if done.length + 1 + 1 > tab.length then 10 * ((done.length + 1 + 11) % 10) else tab.length) = tab.length := by
        rw [if_neg (by omega)]
      rw [if_pos this, if_neg h0]
      exact ⟨hl, fun _ _ => rfl⟩

theorem grow_30 (tab : List (Entry N)) (done : List (Cst (VV N))) (h : Table tab done) (hd : done.length = 29) :
    (grow 30 tab).length = 10 := by
  have hl := h.len
  rw [hd] at hl
  simp at hl
  unfold grow newLen resize
  rw [hl]
  simp [hl]

theorem Table.step {tab : List (Entry N)} {done : List (Cst (VV N))} (h : Table tab done) (hd : done.length + 1 ≤ 29)
    (c : Cst (VV N)) : done.length + 1 < (grow (done.length + 1) tab).length ∧
      Table ((grow (done.length + 1) tab).set (done.length + 1) (some (backKey c))) (done ++ [c]) := by
  obtain ⟨g1, g2⟩ := grow_small tab done h hd
  have hlt : done.length + 1 < (grow (done.length + 1) tab).length := by
    rw [g1]
    split <;> omega
  refine ⟨hlt, ?_, ?_⟩
  · rw [List.length_set, g1, List.length_append, List.length_singleton]
    split_ifs <;> first | rfl | omega
  · intro i d hi
    rw [List.getElem?_append] at hi
    split at hi
    · rename_i hi'
      rw [List.getElem?_set_ne (by omega)]
      have := h.at_ i d hi
      rw [g2 (i + 1) (List.getElem?_eq_some_iff.1 this).1, this]
    · rename_i hi'
      have : i - done.length = 0 := by
        have := (List.getElem?_eq_some_iff.1 hi).1
        simp at this
        omega
      rw [this] at hi
      simp at hi
      subst hi
      rw [show i + 1 = done.length + 1 by omega, List.getElem?_set_self hlt]

theorem noTail_cst (w : List Char) (h : str "Constraint" ∉ w.tails) : NoTail (str "Constraint") w := noTail_of_tails h

/-- The loop on the definitions and the words behind them. -/
theorem readCsts_small (ws : List (List Char)) (hw : ∀ w ∈ ws, Word w) (hn : ∀ w ∈ ws, NoTail (str "Constraint") w) :
    ∀ (cs done : List (Cst (VV N))) (f : Nat) (tab : List (Entry N)), cs.length < f → Table tab done →
    done.length + cs.length ≤ 29 → (∀ c ∈ cs, c.kind ≠ .unconstrained) →
    ∃ tab', readCsts f tab (outw ((defWords (done.length + 1) cs).flatten ++ ws)) = .ok tab' ∧ Table tab' (done ++ cs)
  | [], done, f, tab, hf, h, _, _ => by
    obtain ⟨f, rfl⟩ := Nat.exists_eq_succ_of_ne_zero (n := f) (by simp at hf; omega)
    refine ⟨tab, ?_, by simpa using h⟩
    show readCsts (f + 1) tab (outw ws) = _
    have := strstr_none (p := str "Constraint") (by decide) (by decide) ws hw hn
    rw [readCsts, show str "Constraint " = str "Constraint" ++ [' '] by rfl, this]
  | c :: cs, done, f, tab, hf, h, hle, hk => by
    simp only [List.length_cons] at hf hle
    obtain ⟨f, rfl⟩ := Nat.exists_eq_succ_of_ne_zero (n := f) (by omega)
    obtain ⟨s1, s2⟩ := h.step (by omega) c
    obtain ⟨tab', r1, r2⟩ := readCsts_small ws hw hn cs (done ++ [c]) f _ (by omega) s2 (by simp; omega)
      (fun x hx => hk x (by simp [hx]))
    refine ⟨tab', ?_, by simpa using r2⟩
    have e : outw ((defWords (done.length + 1) (c :: cs)).flatten ++ ws) =
        outw (cstWords (done.length + 1) c ++ ((defWords (done.length + 1 + 1) cs).flatten ++ ws)) := by
      rw [defWords, List.flatten_cons, List.append_assoc]
    have hst : strstr (str "Constraint ") (outw (cstWords (done.length + 1) c ++ ((defWords (done.length + 1 + 1) cs).flatten ++ ws))) =
        some (outw (cstWords (done.length + 1) c ++ ((defWords (done.length + 1 + 1) cs).flatten ++ ws))) := by
      rw [outw_append, outw_cst]
      exact strstr_here (pat := str "Constraint ")
    have hx : ∀ w ∈ (defWords (done.length + 1 + 1) cs).flatten ++ ws, Word w := by
      intro w hw'
      rcases List.mem_append.1 hw' with hw' | hw'
      · exact flatten_word (defWords_lines _ cs) w hw'
      · exact hw w hw'
    rw [e, readCsts, hst]
    simp only
    rw [readCst_room tab _ c (hk c (by simp)) (by omega) (by unfold intMax; omega) _ hx, if_pos s1, okb]
    rw [List.length_append, List.length_singleton] at r1
    exact r1

/-- With 30 constraints or more the loop writes behind the end of `cst_list`. -/
theorem readCsts_large (ws : List (List Char)) (hw : ∀ w ∈ ws, Word w) :
    ∀ (cs done : List (Cst (VV N))) (f : Nat) (tab : List (Entry N)), cs.length < f → Table tab done →
    done.length ≤ 29 → 30 ≤ done.length + cs.length → (∀ c ∈ cs, c.kind ≠ .unconstrained) →
    readCsts f tab (outw ((defWords (done.length + 1) cs).flatten ++ ws)) = .error (.fault .ub)
  | [], done, f, tab, hf, h, h1, h2, _ => by simp at h2; omega
  | c :: cs, done, f, tab, hf, h, h1, h2, hk => by
    simp only [List.length_cons] at hf h2
    obtain ⟨f, rfl⟩ := Nat.exists_eq_succ_of_ne_zero (n := f) (by omega)
    have e : outw ((defWords (done.length + 1) (c :: cs)).flatten ++ ws) =
        outw (cstWords (done.length + 1) c ++ ((defWords (done.length + 1 + 1) cs).flatten ++ ws)) := by
      rw [defWords, List.flatten_cons, List.append_assoc]
    have hst : strstr (str "Constraint ") (outw (cstWords (done.length + 1) c ++ ((defWords (done.length + 1 + 1) cs).flatten ++ ws))) =
        some (outw (cstWords (done.length + 1) c ++ ((defWords (done.length + 1 + 1) cs).flatten ++ ws))) := by
      rw [outw_append, outw_cst]
      exact strstr_here (pat := str "Constraint ")
    have hx : ∀ w ∈ (defWords (done.length + 1 + 1) cs).flatten ++ ws, Word w := by
      intro w hw'
      rcases List.mem_append.1 hw' with hw' | hw'
      · exact flatten_word (defWords_lines _ cs) w hw'
      · exact hw w hw'
    rw [e, readCsts, hst]
    simp only
    rw [readCst_room tab _ c (hk c (by simp)) (by omega) (by unfold intMax; omega) _ hx]
    by_cases h29 : done.length = 29
    · have := grow_30 tab done h h29
      rw [h29, if_neg (by rw [this]; omega)]
      rfl
    · obtain ⟨s1, s2⟩ := h.step (by omega) c
      rw [if_pos s1, okb]
      have := readCsts_large ws hw cs (done ++ [c]) f _ (by omega) s2 (by simp; omega) (by simp; omega)
        (fun x hx => hk x (by simp [hx]))
      rw [List.length_append, List.length_singleton] at this
      exact this

end Plc.Vect
