import Verif.Model.Vect
import Verif.Proofs.Io2
import Verif.Proofs.Constraint2

/-! # The text of VECT files: gaps, words, comments -/

namespace Plc.Vect

open Plc.Io Plc.Cst

variable {N : NumFmt}

theorem okb {ε α β : Type} (a : α) (f : α → Except ε β) : ((Except.ok a : Except ε α) >>= f) = f a := rfl
theorem errb {ε α β : Type} (e : ε) (f : α → Except ε β) : ((Except.error e : Except ε α) >>= f) = .error e := rfl

/-- A character of a word. -/
def Solid (c : Char) : Prop := isSpace c = false ∧ c ≠ '#' ∧ c ≠ '\x00'

instance (c : Char) : Decidable (Solid c) := by unfold Solid; infer_instance

/-- A word. -/
def Word (w : List Char) : Prop := w ≠ [] ∧ ∀ c ∈ w, Solid c

instance (w : List Char) : Decidable (Word w) := by unfold Word; infer_instance

/-- End of the text, or a character of a word. -/
def Stops (t : List Char) : Prop := t = [] ∨ ∃ c u, t = c :: u ∧ Solid c

theorem Word.stops {w : List Char} (h : Word w) (t : List Char) : Stops (w ++ t) := by
  cases w with
  | nil => exact absurd rfl h.1
  | cons c u => exact Or.inr ⟨c, u ++ t, rfl, h.2 c (by simp)⟩

theorem space_not_hash {c : Char} (h : isSpace c = true) : c ≠ '#' := by
  rintro rfl
  revert h
  decide

theorem Solid.ne_newline {c : Char} (h : Solid c) : c ≠ '\n' := by
  rintro rfl
  exact absurd h.1 (by decide)

theorem Solid.ne_blank {c : Char} (h : Solid c) : c ≠ ' ' := by
  rintro rfl
  exact absurd h.1 (by decide)

theorem isDig_solid {c : Char} (h : isDig c = true) : Solid c := by
  refine ⟨?_, ?_, ?_⟩
  · unfold isDig at h
    unfold isSpace
    simp only [Bool.and_eq_true, decide_eq_true_eq] at h
    have e : ∀ d : Char, d.toNat < 48 → c ≠ d := by
      rintro d hd rfl
      omega
    have h1 := e ' ' (by decide)
    have h2 := e '\n' (by decide)
    have h3 := e '\t' (by decide)
    have h4 := e '\r' (by decide)
    simp [h1, h2, h3, h4]
    omega
  · rintro rfl
    exact absurd h (by decide)
  · rintro rfl
    exact absurd h (by decide)

theorem dec_ne_nil (n : Nat) : dec n ≠ [] := by
  have := plain_dec n []
  intro h
  rw [h] at this
  revert this
  simp [Plain]

theorem dec_word (n : Nat) : Word (dec n) := ⟨dec_ne_nil n, fun c hc => isDig_solid (dec_isDig n c hc)⟩

theorem decI_word (n : Int) : Word (decI n) := by
  unfold decI
  split
  · refine ⟨by simp, ?_⟩
    intro c hc
    rcases List.mem_cons.1 hc with rfl | hc
    · decide
    · exact (dec_word _).2 c hc
  · exact dec_word _

theorem p16_word (x : N.F) : Word (N.p16 x) := N.word16 x
theorem p6_word (x : N.F) : Word (N.p6 x) := N.word6 x

/-! ## Gaps -/

/-- Text that `skip_whitespace_and_comments` passes. -/
def Gap (g : List Char) : Prop := ∀ x, skipWC false (g ++ x) = skipWC false x

theorem Gap.nil : Gap [] := fun _ => rfl

theorem Gap.append {g h : List Char} (a : Gap g) (b : Gap h) : Gap (g ++ h) := by
  intro x
  rw [List.append_assoc, a, b]

theorem Gap.space {c : Char} (h : isSpace c = true) : Gap [c] := by
  intro x
  show skipWC false (c :: x) = _
  rw [skipWC, if_neg (space_not_hash h), if_neg (by simp), if_neg (by simp [h])]

theorem skipWC_body : ∀ (b t : List Char), (∀ c ∈ b, c ≠ '\n') → skipWC true (b ++ '\n' :: t) = skipWC false t := by
  intro b
  induction b with
  | nil =>
    intro t _
    show skipWC true ('\n' :: t) = _
    rw [skipWC, if_neg (by decide), if_pos (by simp)]
  | cons c b ih =>
    intro t h
    have h1 := h c (by simp)
    have ih := ih t (fun x hx => h x (by simp [hx]))
    show skipWC true (c :: (b ++ '\n' :: t)) = _
    rw [skipWC]
    split
    · exact ih
    · rw [if_neg (by simp [h1]), if_neg (by simp), ih]

theorem Gap.comment {b : List Char} (h : ∀ c ∈ b, c ≠ '\n') : Gap ('#' :: b ++ ['\n']) := by
  intro x
  rw [List.append_assoc]
  show skipWC false ('#' :: (b ++ '\n' :: x)) = _
  rw [skipWC, if_pos rfl]
  exact skipWC_body b x h

theorem skipWC_solid {c : Char} (h : Solid c) (t : List Char) : skipWC false (c :: t) = some (c :: t) := by
  rw [skipWC, if_neg h.2.1, if_neg (by simp), if_pos ⟨h.1, rfl⟩]

theorem skipWC_word {w : List Char} (h : Word w) (t : List Char) : skipWC false (w ++ t) = some (w ++ t) := by
  cases w with
  | nil => exact absurd rfl h.1
  | cons c u => exact skipWC_solid (h.2 c (by simp)) _

theorem Gap.skip {g w : List Char} (a : Gap g) (h : Word w) (t : List Char) : skipWC false (g ++ (w ++ t)) = some (w ++ t) := by
  rw [a, skipWC_word h]

theorem noDig_space {c : Char} (h : isSpace c = true) (t : List Char) : NoDig (c :: t) := by
  intro d u e
  injection e with e1 e2
  subst e1
  cases hd : isDig c with
  | false => rfl
  | true =>
    have := (isDig_solid hd).1
    rw [h] at this
    cases this

theorem scanMag_dec {n : Nat} (hn : n ≤ intMax) (neg : Bool) {r : List Char} (h : NoDig r) :
    scanMag neg (dec n ++ r) = .ok (some (if neg then -(n : Int) else n, r)) := by
  have h3 := readDigits_digitsF (n + 1) n r (by omega)
  rw [← dec_append, readDigits_stop n h] at h3
  obtain ⟨c, t, ht⟩ : ∃ c t, dec n = c :: t := by
    cases hd : dec n with
    | nil => exact absurd hd (dec_ne_nil n)
    | cons c t => exact ⟨c, t, rfl⟩
  have hc : isDig c = true := dec_isDig n c (by rw [ht]; simp)
  rw [ht] at h3 ⊢
  rw [List.cons_append] at h3 ⊢
  rw [scanMag, if_pos hc]
  simp only [h3]
  rw [if_pos hn]

theorem scanD_decI {n : Int} (hn : n.natAbs ≤ intMax) {r : List Char} (h : NoDig r) :
    scanD (decI n ++ r) = .ok (some (n, r)) := by
  unfold scanD decI
  split_ifs with hneg
  · have : skip ('-' :: dec n.natAbs ++ r) = '-' :: (dec n.natAbs ++ r) := by
      rw [skip, List.cons_append, List.dropWhile_cons_of_neg (by decide)]
    rw [this]
    show scanMag true _ = _
    rw [scanMag_dec hn true h]
    congr 3
    rw [if_pos rfl]
    omega
  · rw [skip_dec]
    obtain ⟨c, t, ht⟩ : ∃ c t, dec n.natAbs = c :: t := by
      cases hd : dec n.natAbs with
      | nil => exact absurd hd (dec_ne_nil _)
      | cons c t => exact ⟨c, t, rfl⟩
    have hc : isDig c = true := dec_isDig n.natAbs c (by rw [ht]; simp)
    have key := scanMag_dec hn false h
    rw [ht] at key ⊢
    rw [List.cons_append] at key ⊢
    have : scanMag false (c :: (t ++ r)) = .ok (some (n, r)) := by
      rw [key]
      congr 3
      simp only [Bool.false_eq_true, if_false]
      omega
    split
    · rename_i e
      injection e with e1 _
      subst e1
      exact absurd hc (by decide)
    · rename_i e
      injection e with e1 _
      subst e1
      exact absurd hc (by decide)
    · exact this

theorem decI_nat (n : Nat) : decI (n : Int) = dec n := by
  unfold decI
  rw [if_neg (by omega)]
  rfl

theorem scanInt_decI (e : Err) {g : List Char} (hg : Gap g) {n : Int} (hn : n.natAbs ≤ intMax) {c : Char}
    (hc : isSpace c = true) (t : List Char) : scanInt e (g ++ (decI n ++ c :: t)) = .ok (n, c :: t) := by
  unfold scanInt
  rw [hg.skip (decI_word n)]
  show (lift (scanD _) >>= _) = _
  rw [scanD_decI hn (noDig_space hc t)]
  rfl

theorem scanDbl_16 (e : Err) {g : List Char} (hg : Gap g) (x : N.F) {c : Char} (hc : isSpace c = true) (t : List Char) :
    scanDbl N e (g ++ (N.p16 x ++ c :: t)) = .ok (N.r16 x, c :: t) := by
  unfold scanDbl
  rw [hg.skip (p16_word x)]
  show need e (N.scan _) = _
  rw [N.back16 x c t hc]
  rfl

/-- The vector as read back. -/
def r3 (v : V3 N) : V3 N := (N.r16 v.1, N.r16 v.2.1, N.r16 v.2.2)

theorem scan3_16 (e : Err) {g : List Char} (hg : Gap g) (v : V3 N) {c : Char} (hc : isSpace c = true) (t : List Char) :
    scan3 N e (g ++ (triple N.p16 v ++ c :: t)) = .ok (r3 v, c :: t) := by
  unfold scan3 triple
  have sp : Gap [' '] := Gap.space (by decide)
  rw [List.append_assoc, List.cons_append, scanDbl_16 e hg v.1 (by decide), okb]
  rw [List.append_assoc, List.cons_append]
  have := scanDbl_16 e sp v.2.1 (c := ' ') (by decide) (N.p16 v.2.2 ++ c :: t)
  rw [List.singleton_append] at this
  simp only
  rw [this, okb]
  have := scanDbl_16 e sp v.2.2 hc t
  rw [List.singleton_append] at this
  simp only
  rw [this, okb]
  rfl

/-! ## Comments -/

/-- Words with blanks between them. -/
def sep : List (List Char) → List Char
  | [] => []
  | [w] => w
  | w :: v :: ws => w ++ ' ' :: sep (v :: ws)

/-- Words, a blank behind each. -/
def outw : List (List Char) → List Char
  | [] => []
  | w :: ws => w ++ ' ' :: outw ws

/-- A comment line. -/
def cline (ws : List (List Char)) : List Char := '#' :: ' ' :: (sep ws ++ ['\n'])

/-- Comment lines. -/
def block (ls : List (List (List Char))) : List Char := ls.flatMap cline

/-- Lines of at least one word. -/
def Lines (ls : List (List (List Char))) : Prop := ∀ ws ∈ ls, ws ≠ [] ∧ ∀ w ∈ ws, Word w

theorem outw_append (a b : List (List Char)) : outw (a ++ b) = outw a ++ outw b := by
  induction a with
  | nil => rfl
  | cons w a ih => simp [outw, ih]

theorem Word.tail {c : Char} {w : List Char} (h : ∀ d ∈ c :: w, Solid d) : Solid c ∧ ∀ d ∈ w, Solid d :=
  ⟨h c (by simp), fun d hd => h d (by simp [hd])⟩

theorem gc_word (w : List Char) : (∀ c ∈ w, Solid c) → ∀ (ss : Bool) (t : List Char), w ≠ [] →
    getComment true ss false (w ++ t) =
      (w ++ (getComment true false false t).1, (getComment true false false t).2) := by
  induction w with
  | nil => intro _ _ _ h; exact absurd rfl h
  | cons c w ih =>
    intro h ss t _
    obtain ⟨hc, hw⟩ := Word.tail h
    rw [List.cons_append, getComment, if_neg hc.2.1, if_neg hc.ne_newline, if_neg (by rw [hc.1]; simp), if_pos (by simp)]
    cases w with
    | nil => rfl
    | cons d w =>
      rw [ih hw false t (by simp)]
      rfl

theorem gc_blank (t : List Char) : getComment true false false (' ' :: t) =
    (' ' :: (getComment true true false t).1, (getComment true true false t).2) := by
  rw [getComment, if_neg (by decide), if_neg (by decide), if_pos (by decide), if_pos (by decide)]

theorem gc_newline (ss : Bool) (t : List Char) : getComment true ss false ('\n' :: t) =
    (' ' :: (getComment true true true t).1, (getComment true true true t).2) := by
  rw [getComment, if_neg (by decide), if_pos rfl, if_pos rfl]

theorem gc_sep : ∀ (ws : List (List Char)), ws ≠ [] → (∀ w ∈ ws, Word w) → ∀ (ss : Bool) (t : List Char),
    getComment true ss false (sep ws ++ '\n' :: t) =
      (outw ws ++ (getComment true true true t).1, (getComment true true true t).2)
  | [], h, _, _, _ => absurd rfl h
  | [w], _, h, ss, t => by
    have hw := h w (by simp)
    show getComment true ss false (w ++ '\n' :: t) = _
    rw [gc_word w hw.2 ss _ hw.1, gc_newline]
    simp [outw]
  | w :: v :: ws, _, h, ss, t => by
    have hw := h w (by simp)
    rw [sep, List.append_assoc, List.cons_append, gc_word w hw.2 ss _ hw.1, gc_blank,
      gc_sep (v :: ws) (by simp) (fun x hx => h x (by simp [hx]))]
    simp [outw]

theorem gc_line_next {ws : List (List Char)} (h1 : ws ≠ []) (h2 : ∀ w ∈ ws, Word w) (t : List Char) :
    getComment true true true (cline ws ++ t) =
      (outw ws ++ (getComment true true true t).1, (getComment true true true t).2) := by
  have : cline ws ++ t = '#' :: ' ' :: (sep ws ++ '\n' :: t) := by simp [cline]
  rw [this, getComment, if_pos rfl, if_pos rfl, if_pos rfl, getComment, if_neg (by decide), if_neg (by decide),
    if_pos (by decide), if_neg (by decide), gc_sep ws h1 h2]

theorem gc_line_first {ws : List (List Char)} (h1 : ws ≠ []) (h2 : ∀ w ∈ ws, Word w) (t : List Char) :
    getComment false false false (cline ws ++ t) =
      (outw ws ++ (getComment true true true t).1, (getComment true true true t).2) := by
  have : cline ws ++ t = '#' :: ' ' :: (sep ws ++ '\n' :: t) := by simp [cline]
  rw [this, getComment, if_pos rfl, if_neg (by simp), getComment, if_neg (by decide), if_neg (by decide),
    if_pos (by decide), if_neg (by decide), gc_sep ws h1 h2]

theorem gc_stop_next {t : List Char} (h : Stops t) : getComment true true true t = ([], t) := by
  rcases h with rfl | ⟨c, u, rfl, hc⟩
  · rfl
  · rw [getComment, if_neg hc.2.1, if_neg hc.ne_newline, if_neg (by rw [hc.1]; simp), if_neg (by simp)]

theorem gc_stop_first {t : List Char} (h : Stops t) : getComment false false false t = ([], t) := by
  rcases h with rfl | ⟨c, u, rfl, hc⟩
  · rfl
  · rw [getComment, if_neg hc.2.1, if_neg hc.ne_newline, if_neg (by rw [hc.1]; simp), if_neg (by simp)]

theorem gc_block_next (ls : List (List (List Char))) (h : Lines ls) {t : List Char} (ht : Stops t) :
    getComment true true true (block ls ++ t) = (outw ls.flatten, t) := by
  induction ls with
  | nil => exact gc_stop_next ht
  | cons ws ls ih =>
    have h1 := h ws (by simp)
    have e : block (ws :: ls) ++ t = cline ws ++ (block ls ++ t) := by simp [block]
    rw [e, gc_line_next h1.1 h1.2, ih (fun x hx => h x (by simp [hx]))]
    simp [outw_append]

theorem gc_block_first (ls : List (List (List Char))) (h : Lines ls) {t : List Char} (ht : Stops t) :
    getComment false false false (block ls ++ t) = (outw ls.flatten, t) := by
  cases ls with
  | nil => exact gc_stop_first ht
  | cons ws ls =>
    have h1 := h ws (by simp)
    have e : block (ws :: ls) ++ t = cline ws ++ (block ls ++ t) := by simp [block]
    rw [e, gc_line_first h1.1 h1.2, gc_block_next ls (fun x hx => h x (by simp [hx])) ht]
    simp [outw_append]

theorem gc_space_first {c : Char} (h : isSpace c = true) (t : List Char) :
    getComment false false false (c :: t) = getComment false false false t := by
  rw [getComment, if_neg (space_not_hash h)]
  split
  · rw [if_neg (by simp)]
  · simp only [h, if_true, Bool.false_and, Bool.false_eq_true, if_false]

theorem outw_no_nul (ws : List (List Char)) (h : ∀ w ∈ ws, Word w) : ∀ c ∈ outw ws, c ≠ '\x00' := by
  induction ws with
  | nil => simp [outw]
  | cons w ws ih =>
    intro c hc
    rw [outw, List.mem_append, List.mem_cons] at hc
    rcases hc with hc | rfl | hc
    · exact ((h w (by simp)).2 c hc).2.2
    · decide
    · exact ih (fun x hx => h x (by simp [hx])) c hc

theorem takeWhile_id {l : List Char} (h : ∀ c ∈ l, c ≠ '\x00') : l.takeWhile (· ≠ '\x00') = l := by
  rw [List.takeWhile_eq_self_iff]
  intro c hc
  simpa using h c hc

/-- `get_comment` on a character of white space and a block of comment lines gives the words of the lines. -/
theorem comment_block (ls : List (List (List Char))) (h : Lines ls) {c : Char} (hc : isSpace c = true) {t : List Char}
    (ht : Stops t) : comment (c :: (block ls ++ t)) = (outw ls.flatten, t) := by
  unfold comment
  rw [gc_space_first hc, gc_block_first ls h ht]
  simp only
  rw [takeWhile_id]
  apply outw_no_nul
  intro w hw
  obtain ⟨ws, h1, h2⟩ := List.mem_flatten.1 hw
  exact (h ws h1).2 w h2

theorem sep_no_newline : ∀ (ws : List (List Char)), (∀ w ∈ ws, Word w) → ∀ c ∈ sep ws, c ≠ '\n'
  | [], _, c, hc => by simp [sep] at hc
  | [w], h, c, hc => ((h w (by simp)).2 c hc).ne_newline
  | w :: v :: ws, h, c, hc => by
    rw [sep, List.mem_append, List.mem_cons] at hc
    rcases hc with hc | rfl | hc
    · exact ((h w (by simp)).2 c hc).ne_newline
    · decide
    · exact sep_no_newline (v :: ws) (fun x hx => h x (by simp [hx])) c hc

theorem Gap.block (ls : List (List (List Char))) (h : Lines ls) : Gap (block ls) := by
  induction ls with
  | nil => exact Gap.nil
  | cons ws ls ih =>
    have h1 := h ws (by simp)
    have e : Vect.block (ws :: ls) = ('#' :: (' ' :: sep ws) ++ ['\n']) ++ Vect.block ls := by
      simp [Vect.block, cline]
    rw [e]
    refine Gap.append (Gap.comment ?_) (ih (fun x hx => h x (by simp [hx])))
    intro c hc
    rcases List.mem_cons.1 hc with rfl | hc
    · decide
    · exact sep_no_newline ws h1.2 c hc

/-! ## Tokens -/

theorem strstr_here {pat t : List Char} : strstr pat (pat ++ t) = some (pat ++ t) := by
  cases h : pat ++ t with
  | nil =>
    have : pat = [] := (List.append_eq_nil_iff.1 h).1
    subst this
    rfl
  | cons c u =>
    rw [strstr, if_pos]
    rw [← h]
    simp

theorem prefix_word {p w t : List Char} (hp : ∀ c ∈ p, c ≠ ' ') (hw : ∀ c ∈ w, c ≠ ' ')
    (h : (p ++ [' ']) <+: (w ++ ' ' :: t)) : p = w := by
  induction p generalizing w with
  | nil =>
    cases w with
    | nil => rfl
    | cons c w =>
      obtain ⟨u, hu⟩ := h
      simp at hu
      exact absurd hu.1.symm (hw c (by simp))
  | cons a p ih =>
    cases w with
    | nil =>
      obtain ⟨u, hu⟩ := h
      simp at hu
      exact absurd hu.1 (hp a (by simp))
    | cons c w =>
      obtain ⟨u, hu⟩ := h
      simp at hu
      rw [hu.1, ih (w := w) (fun x hx => hp x (by simp [hx])) (fun x hx => hw x (by simp [hx])) ⟨u, by simpa using hu.2⟩]

theorem strstr_pass {p : List Char} (hp0 : p ≠ []) (hp : ∀ c ∈ p, c ≠ ' ') (t : List Char) : ∀ w : List Char,
    (∀ c ∈ w, c ≠ ' ') → (∀ s, s <:+ w → s ≠ p) → strstr (p ++ [' ']) (w ++ ' ' :: t) = strstr (p ++ [' ']) t := by
  intro w
  induction w with
  | nil =>
    intro _ _
    show strstr _ (' ' :: t) = _
    rw [strstr, if_neg]
    intro h
    rw [List.isPrefixOf_iff_prefix] at h
    obtain ⟨u, hu⟩ := h
    cases p with
    | nil => exact absurd rfl hp0
    | cons a p =>
      simp at hu
      exact absurd hu.1 (hp a (by simp))
  | cons c w ih =>
    intro hw hs
    rw [List.cons_append, strstr, if_neg, ih (fun x hx => hw x (by simp [hx]))
      (fun s h => hs s (h.trans (List.suffix_cons c w)))]
    intro h
    rw [List.isPrefixOf_iff_prefix] at h
    exact hs (c :: w) (List.suffix_refl _) (prefix_word hp hw h).symm

/-- The word does not end with the pattern. -/
def NoTail (p w : List Char) : Prop := ∀ s, s <:+ w → s ≠ p

theorem strstr_none {p : List Char} (hp0 : p ≠ []) (hp : ∀ c ∈ p, c ≠ ' ') (ws : List (List Char)) (hw : ∀ w ∈ ws, Word w)
    (h : ∀ w ∈ ws, NoTail p w) : strstr (p ++ [' ']) (outw ws) = none := by
  induction ws with
  | nil =>
    show strstr _ [] = none
    rw [strstr, if_neg (by simp)]
  | cons w ws ih =>
    rw [outw, strstr_pass hp0 hp _ w (fun c hc => ((hw w (by simp)).2 c hc).ne_blank) (h w (by simp))]
    exact ih (fun x hx => hw x (by simp [hx])) (fun x hx => h x (by simp [hx]))

theorem noTail_of_tails {p w : List Char} (h : p ∉ w.tails) : NoTail p w := by
  intro s hs e
  subst e
  exact h ((List.mem_tails _ _).2 hs)

theorem noTail_dec {p : List Char} {c : Char} (hc : c ∈ p) (hd : isDig c = false) (n : Nat) : NoTail p (dec n) := by
  intro s hs e
  subst e
  have := dec_isDig n c (hs.subset hc)
  rw [hd] at this
  cases this

theorem takeWhile_word {w : List Char} (h : ∀ c ∈ w, c ≠ ' ') (t : List Char) :
    (w ++ ' ' :: t).takeWhile (· ≠ ' ') = w ∧ (w ++ ' ' :: t).dropWhile (· ≠ ' ') = ' ' :: t := by
  induction w with
  | nil => exact ⟨by rw [List.nil_append, List.takeWhile_cons_of_neg (by simp)],
      by rw [List.nil_append, List.dropWhile_cons_of_neg (by simp)]⟩
  | cons c w ih =>
    have h1 := h c (by simp)
    obtain ⟨a, b⟩ := ih (fun x hx => h x (by simp [hx]))
    exact ⟨by rw [List.cons_append, List.takeWhile_cons_of_pos (by simpa using h1), a],
      by rw [List.cons_append, List.dropWhile_cons_of_pos (by simpa using h1), b]⟩

theorem strtok_word (p : List Char) {w : List Char} (h : Word w) (t : List Char) :
    strtok ⟨p, w ++ ' ' :: t⟩ = some (w, ⟨p ++ w ++ ['\x00'], t⟩) := by
  have hb : ∀ c ∈ w, c ≠ ' ' := fun c hc => (h.2 c hc).ne_blank
  obtain ⟨a, b⟩ := takeWhile_word hb t
  have e : (w ++ ' ' :: t).dropWhile (· = ' ') = w ++ ' ' :: t ∧ (w ++ ' ' :: t).takeWhile (· = ' ') = [] := by
    cases w with
    | nil => exact absurd rfl h.1
    | cons c u =>
      have := hb c (by simp)
      exact ⟨by rw [List.cons_append, List.dropWhile_cons_of_neg (by simpa using this)],
        by rw [List.cons_append, List.takeWhile_cons_of_neg (by simpa using this)]⟩
  unfold strtok
  simp only
  rw [e.1, e.2, if_neg (by simp), a, b, if_neg (by simp)]
  simp

theorem cstr_todo {p t : List Char} {k : Nat} (hk : k = p.length) (ht : ∀ c ∈ t, c ≠ '\x00') :
    cstr ⟨p, t⟩ k = .ok t := by
  unfold cstr
  simp only
  rw [if_neg (by simp; omega), hk, List.drop_left, takeWhile_id ht]

theorem stepOver_words : ∀ (ws : List (List Char)) (p t : List Char) (k : Nat), (∀ w ∈ ws, Word w) → k = p.length →
    ∃ p', stepOver ws.length ⟨p, outw ws ++ t⟩ k = .ok (⟨p', t⟩, p'.length)
  | [], p, t, k, _, hk => ⟨p, by rw [hk]; rfl⟩
  | w :: ws, p, t, k, h, hk => by
    obtain ⟨p', h'⟩ := stepOver_words ws (p ++ w ++ ['\x00']) t (k + w.length + 1) (fun x hx => h x (by simp [hx]))
      (by simp; omega)
    refine ⟨p', ?_⟩
    rw [List.length_cons, stepOver, outw, List.append_assoc, List.cons_append, strtok_word p (h w (by simp))]
    exact h'

theorem sscanDbls_6 : ∀ (xs : List N.F) (t : List Char), xs ≠ [] →
    sscanDbls N xs.length (outw (xs.map N.p6) ++ t) = some (xs.map N.r6) := by
  have key : ∀ (xs : List N.F) (g t : List Char), (g = [] ∨ g = [' ']) →
      sscanDbls N xs.length (g ++ (outw (xs.map N.p6) ++ t)) = some (xs.map N.r6) := by
    intro xs
    induction xs with
    | nil => intro g t _; rfl
    | cons x xs ih =>
      intro g t hg
      have hs : skip (g ++ (outw ((x :: xs).map N.p6) ++ t)) = N.p6 x ++ ' ' :: (outw (xs.map N.p6) ++ t) := by
        have e : outw ((x :: xs).map N.p6) ++ t = N.p6 x ++ ' ' :: (outw (xs.map N.p6) ++ t) := by
          simp [outw]
        rw [e]
        have hw := p6_word (N := N) x
        cases hx : N.p6 x with
        | nil => exact absurd hx hw.1
        | cons c u =>
          have hc : isSpace c = false := (hw.2 c (by rw [hx]; simp)).1
          rcases hg with rfl | rfl
          · rw [skip, List.nil_append, List.cons_append, List.dropWhile_cons_of_neg (by simp [hc])]
          · rw [skip, List.singleton_append, List.dropWhile_cons_of_pos (by decide), List.cons_append,
              List.dropWhile_cons_of_neg (by simp [hc])]
      rw [List.length_cons, sscanDbls, hs, N.back6 x ' ' _ (by decide)]
      have := ih [' '] t (Or.inr rfl)
      rw [List.singleton_append] at this
      show (sscanDbls N xs.length _ >>= _) = _
      rw [this]
      rfl
  intro xs t _
  exact key xs [] t (Or.inl rfl)

end Plc.Vect
