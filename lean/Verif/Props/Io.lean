import Verif.Proofs.Io2
import Verif.Props.Comps
import Verif.Proofs.Moves
import Verif.Spec.Examples
import Verif.Proofs.Std
import Batteries.Lean.Except

/-!
# C40: written diagrams read back

`pd_write` followed by `pd_read` (`src/pdcode.c` 2877-2997, 3117-3626).
-/

namespace Plc.Io

open Plc.Cmp Plc.Core Plc.Moves

theorem hash_chars (c : Char) (h : c.isAlphanum = true ∨ c = '+' ∨ c = '/') : isHash c = true := by
  rcases h with h | rfl | rfl
  · simp only [Char.isAlphanum, Char.isAlpha, Char.isUpper, Char.isLower, Char.isDigit, Bool.or_eq_true, Bool.and_eq_true, decide_eq_true_eq,
      UInt32.le_iff_toNat_le, ge_iff_le] at h
    have e : c.toNat = c.val.toNat := rfl
    simp only [isHash, isDig, Bool.or_eq_true, Bool.and_eq_true, decide_eq_true_eq, e]
    simp at h
    rcases h with (h | h) | h
    · exact .inl (.inl (.inl (.inr h)))
    · exact .inl (.inl (.inl (.inl h)))
    · exact .inl (.inl (.inr h))
  · decide
  · decide

theorem tag_print : ∀ t, t < 127 → 33 ≤ t → (Char.ofNat t).toNat = t ∧ isSpace (Char.ofNat t) = false := by decide

/-- A diagram with crossings as the library builds them: a hash of at most 31 base64
characters, a 64-bit uid, edge records that agree with the crossings, at most
`n/2 + 2` components with visible tags and at most `n + 2` faces, all naming existing
edges. -/
structure Writable (pd : Pd) : Prop where
  hash_ne : pd.hash ≠ []
  hash : ∀ c ∈ pd.hash, c.isAlphanum = true ∨ c = '+' ∨ c = '/'
  hash_len : pd.hash.length ≤ 31
  uid : pd.uid < 2 ^ 64
  ne : pd.cross ≠ []
  sound : Consistent pd.cross pd.edge
  size : pd.edge.length < 2 ^ 31
  ncomps : pd.comp.length ≤ max pd.cross.length 2 / 2 + 2
  nfaces : pd.face.length ≤ max pd.cross.length 2 + 2
  tag : ∀ c ∈ pd.comp, 33 ≤ c.tag ∧ c.tag ≤ 126
  comp : ∀ c ∈ pd.comp, c.edge.length ≤ pd.edge.length ∧ ∀ e ∈ c.edge, e < pd.edge.length
  face : ∀ f ∈ pd.face, f.edge.length ≤ pd.edge.length ∧ ∀ e ∈ f.edge, e < pd.edge.length
  orient : ∀ f ∈ pd.face, f.orient.length = f.edge.length ∧ ∀ o ∈ f.orient, o ≠ .unset

/-- The structure of `pd` fits in buffers of these sizes. -/
def Fits (caps : Caps) (pd : Pd) : Prop :=
  pd.cross.length ≤ caps.verts ∧ pd.edge.length ≤ caps.edges ∧ pd.comp.length ≤ caps.comps ∧ pd.face.length ≤ caps.faces

theorem Writable.bounds {pd : Pd} (h : Writable pd) :
    ∀ r ∈ pd.edge, r.head < pd.cross.length ∧ r.tail < pd.cross.length ∧ r.headpos < 4 ∧ r.tailpos < 4 := by
  intro r hr
  obtain ⟨e, he, rfl⟩ := List.getElem_of_mem hr
  have hg : pd.edge[e]? = some pd.edge[e] := by simp [he]
  have h1 := slot_lt (h.sound.head _ _ hg)
  have h2 := slot_lt (h.sound.tail _ _ hg)
  exact ⟨h1.1, h2.1, h1.2, h2.2⟩

theorem Writable.small {pd : Pd} (h : Writable pd) : ∀ c ∈ pd.cross, ∀ x ∈ edges c, x < pd.edge.length := by
  intro c hc x hx
  obtain ⟨i, hi, rfl⟩ := List.getElem_of_mem hc
  obtain ⟨k, hk, rfl⟩ := edges_mem hx
  exact h.sound.slot_edge_lt (slot_of_lt hi hk)

theorem Writable.printable {pd : Pd} (h : Writable pd) : Printable pd := by
  have hc := h.sound.count
  have hs := h.size
  refine ⟨h.hash_ne, fun c hc => hash_chars c (h.hash c hc), by have := h.hash_len; omega, by have := h.uid; unfold ulongMax; omega,
    List.length_pos_of_ne_nil h.ne, by omega, ?_, ?_, by simp only [capsNew]; omega, h.ncomps, h.nfaces, ?_, ?_⟩
  · intro c hc
    have := h.small c hc
    simp only [edges, List.mem_cons, List.not_mem_nil, or_false, forall_eq_or_imp, forall_eq] at this
    unfold SmallCross
    omega
  · intro e he
    have := h.bounds e he
    unfold SmallEdge
    omega
  · intro c hc'
    obtain ⟨a, b⟩ := h.comp c hc'
    obtain ⟨t1, t2⟩ := h.tag c hc'
    obtain ⟨t3, t4⟩ := tag_print c.tag (by omega) t1
    refine ⟨fun e he => ?_, ?_, t3, t4⟩
    · have := b e he; omega
    · simp only [capsNew]; omega
  · intro f hf
    obtain ⟨a, b⟩ := h.face f hf
    obtain ⟨o1, o2⟩ := h.orient f hf
    refine ⟨fun e he => ?_, ?_, o1, o2⟩
    · have := b e he; omega
    · simp only [capsNew]; omega

/-- C40: what `pd_write` prints for a diagram whose crossings are in canonical order, followed
by any text, `pd_read` turns back into the same diagram and leaves the text (without leading
white space). A hash containing "unset" is computed anew. -/
theorem C40_write_read_partial (qs : QSort) (ok : Pd → Bool) (rehash : Pd → List Char) (caps : Caps) (pd : Pd) (rest : List Char)
    (hw : Writable pd) (hfit : Fits caps pd) (hok : ok pd = true)
    (hcan : ∀ c ∈ pd.cross, c.e0 ≤ c.e1 ∧ c.e0 ≤ c.e2 ∧ c.e0 < c.e3)
    (hsort : pd.cross.Pairwise (fun a b => ([a.e0, a.e1, a.e2, a.e3] : List Nat) < [b.e0, b.e1, b.e2, b.e3])) :
    readPd qs ok rehash (writePd caps pd ++ rest) =
      .ok (some (.code { pd with hash := if str "unset" <:+: pd.hash then rehash pd else pd.hash }, rest.dropWhile isSpace)) := by
  have hfix : regenCrossings qs pd.cross pd.edge = .ok (pd.cross, pd.edge) :=
    regen_fix qs hw.bounds (fun c hc x hx => by have := hw.small c hc x hx; have := hw.size; omega) hcan hsort
  have hu : ∀ l : List Char, hasUnset l = true ↔ str "unset" <:+: l := by
    intro l
    induction l with
    | nil => decide
    | cons c l ih =>
      rw [hasUnset, Bool.or_eq_true, ih, List.infix_cons_iff, List.isPrefixOf_iff_prefix]
  rw [readPd_ok qs ok rehash caps hw.printable hfit hfix hok rest]
  simp only [hu]
  rfl

/-- C40: whatever the order of the crossings, `pd_read` returns the diagram that was
written up to renumbering its crossings by `σ` and rotating crossing `c` by `ρ c` places
(`pd_regenerate_crossings`, C18); signs stay with their crossings, components and faces are as
written. -/
theorem C40_write_read_renumbered_partial (qs : QSort) (ok : Pd → Bool) (rehash : Pd → List Char) (caps : Caps) (pd : Pd) (rest : List Char)
    (hw : Writable pd) (hfit : Fits caps pd) :
    ∃ (cr : List Cross) (ed : List Edge) (σ ρ : Nat → Nat), Renamed pd.cross pd.edge cr ed id σ ρ (fun _ => false) ∧ SameSigns pd.cross cr σ ∧
      (ok { pd with cross := cr, edge := ed } = true → ¬ str "unset" <:+: pd.hash →
        readPd qs ok rehash (writePd caps pd ++ rest) = .ok (some (.code { pd with cross := cr, edge := ed }, rest.dropWhile isSpace))) := by
  obtain ⟨cr, ed, σ, ρ, h1, h2, h3, _⟩ := regenCrossings_renamed qs hw.sound (by have := hw.size; omega)
  refine ⟨cr, ed, σ, ρ, h2, h3, fun hok hh => ?_⟩
  have hu : ∀ l : List Char, hasUnset l = true ↔ str "unset" <:+: l := by
    intro l
    induction l with
    | nil => decide
    | cons c l ih =>
      rw [hasUnset, Bool.or_eq_true, ih, List.infix_cons_iff, List.isPrefixOf_iff_prefix]
  rw [readPd_ok qs ok rehash caps hw.printable hfit h1 hok rest, if_neg (by rw [hu]; exact hh)]
  rfl

/-- Reading `n` diagrams one after the other. -/
def readMany (qs : QSort) (ok : Pd → Bool) (rehash : Pd → List Char) : Nat → P (List Read)
  | 0 => pure []
  | n + 1 => do
    let a ← readPd qs ok rehash
    let l ← readMany qs ok rehash n
    pure (a :: l)

/-- C40: a file of diagrams written one after the other reads back as that list of
diagrams. -/
theorem C40_write_read_many_partial (qs : QSort) (ok : Pd → Bool) (rehash : Pd → List Char) (caps : Caps) (l : List Pd)
    (hl : ∀ pd ∈ l, Writable pd ∧ Fits caps pd ∧ ok pd = true ∧ ¬ str "unset" <:+: pd.hash ∧
      (∀ c ∈ pd.cross, c.e0 ≤ c.e1 ∧ c.e0 ≤ c.e2 ∧ c.e0 < c.e3) ∧
      pd.cross.Pairwise (fun a b => ([a.e0, a.e1, a.e2, a.e3] : List Nat) < [b.e0, b.e1, b.e2, b.e3])) :
    readMany qs ok rehash l.length (l.flatMap (writePd caps)) = .ok (some (l.map .code, [])) := by
  induction l with
  | nil => rfl
  | cons pd l ih =>
    obtain ⟨h1, h2, h3, h4, h5, h6⟩ := hl pd (by simp)
    rw [List.flatMap_cons, List.length_cons, readMany, bind_step (C40_write_read_partial qs ok rehash caps pd _ h1 h2 h3 h5 h6)]
    have hd : (l.flatMap (writePd caps)).dropWhile isSpace = l.flatMap (writePd caps) := by
      cases l with
      | nil => rfl
      | cons q l =>
        rw [List.flatMap_cons]
        have hf : Fits caps q := (hl q (by simp)).2.1
        unfold Fits at hf
        rw [writePd, if_neg (by omega)]
        simp only [List.append_assoc]
        exact skip_cons _ (by decide)
    rw [hd, bind_step (ih fun pd h => hl pd (by simp [h])), pure_step]
    simp [h4]

/-! ## What does not read back -/

/-- C40 fails for a diagram with an empty hash: `pd_read` returns NULL. -/
theorem C40_empty_hash_null (qs : QSort) (ok : Pd → Bool) (rehash : Pd → List Char) (caps : Caps) (pd : Pd) (rest : List Char)
    (hfit : Fits caps pd) (hu : pd.uid < 2 ^ 64) (hh : pd.hash = []) : readPd qs ok rehash (writePd caps pd ++ rest) = .ok none := by
  have hu' : pd.uid ≤ ulongMax := by unfold ulongMax; omega
  have hdl := dec_length hu'
  unfold Fits at hfit
  obtain ⟨t, hw⟩ : ∃ t, writePd caps pd ++ rest = ('p' :: 'd' :: ' ' :: ' ' :: dec pd.uid) ++ '\n' :: t := by
    unfold writePd
    rw [if_neg (by omega), hh]
    exact ⟨_, by simp only [str]; simp; rfl⟩
  have hl := takeLine_ok (r := t) ('p' :: 'd' :: ' ' :: ' ' :: dec pd.uid) 4095 (by
    intro c hc
    simp only [List.mem_cons] at hc
    rcases hc with rfl | rfl | rfl | rfl | hc
    · decide
    · decide
    · decide
    · decide
    · rintro rfl; exact absurd (dec_isDig _ _ hc) (by decide)) (by simp; omega)
  have hsk : skip (('p' :: 'd' :: ' ' :: ' ' :: dec pd.uid) ++ '\n' :: t) = ('p' :: 'd' :: ' ' :: ' ' :: dec pd.uid) ++ '\n' :: t :=
    skip_cons _ (by decide)
  have hne : dec pd.uid ≠ [] := by
    obtain ⟨c, t, h, _⟩ := digitsF_head (pd.uid + 1) pd.uid [] (by omega)
    unfold dec
    rw [h]
    simp
  have hdh : ∀ c ∈ dec pd.uid, isHash c = true := by
    intro c hc
    have := dec_isDig _ c hc
    simp [isHash, this]
  have s1 : scanf ([.ws] ++ lits "pd" ++ [.ws, .set HASHSIZE isHash, .ws, .lu, .ws]) ('p' :: 'd' :: ' ' :: ' ' :: (dec pd.uid ++ ['\n'])) =
      ([.txt (dec pd.uid)], []) := by
    rw [show ([.ws] ++ lits "pd" ++ [.ws, .set HASHSIZE isHash, .ws, .lu, .ws] : List Dir) =
      [.ws, .lit 'p', .lit 'd', .ws, .set 32 isHash, .ws, .lu, .ws] from rfl, scanf_ws, skip_cons _ (by decide), scanf_lit, scanf_lit,
      scanf_ws, skip_space _ (by decide), skip_space _ (by decide), skip_dec, scanf, takeSet_ok (by decide) _ _ hdh (by omega)]
    simp only [hne, if_false]
    rfl
  have s2 : scanf ([.ws] ++ lits "pd" ++ [.ws, .word 4096, .ws, .lu, .ws]) ('p' :: 'd' :: ' ' :: ' ' :: (dec pd.uid ++ ['\n'])) =
      ([.txt (dec pd.uid)], []) := by
    have : takeSet (fun c => !isSpace c) 4096 (dec pd.uid ++ ['\n']) = (dec pd.uid, ['\n']) :=
      takeSet_ok (by decide) _ _ (fun c hc => by rw [(isDig_plain (dec_isDig _ c hc)).1]; rfl) (by omega)
    rw [show ([.ws] ++ lits "pd" ++ [.ws, .word 4096, .ws, .lu, .ws] : List Dir) =
      [.ws, .lit 'p', .lit 'd', .ws, .word 4096, .ws, .lu, .ws] from rfl, scanf_ws, skip_cons _ (by decide), scanf_lit, scanf_lit,
      scanf_ws, skip_space _ (by decide), skip_space _ (by decide), skip_dec, scanf, skip_dec, this]
    simp only [hne, if_false]
    rfl
  rw [hw]
  unfold readPd
  simp only
  rw [hsk, hl]
  simp only
  rw [if_neg (by simp), show ('p' :: 'd' :: ' ' :: ' ' :: dec pd.uid) ++ ['\n'] = 'p' :: 'd' :: ' ' :: ' ' :: (dec pd.uid ++ ['\n']) by simp,
    readHead, s1]
  simp only
  rw [if_pos (by unfold HASHSIZE; omega), readHead.readHead2, s2]

/-- C40: a hash of 32 characters (`PD_HASHSIZE`) does not leave room for the terminating 0 in
the buffer of `pd_read`, which is then written past its end. -/
theorem C40_long_hash_overflows (qs : QSort) (ok : Pd → Bool) (rehash : Pd → List Char) (h : List Char) (rest : List Char)
    (hl : h.length = 32) (hh : ∀ c ∈ h, c.isAlphanum = true ∨ c = '+' ∨ c = '/') :
    readPd qs ok rehash (str "pd " ++ h ++ str " 7\n" ++ rest) = .error .ub := by
  have hh' : ∀ c ∈ h, isHash c = true := fun c hc => hash_chars c (hh c hc)
  have hne : h ≠ [] := by rintro rfl; simp at hl
  have hw : str "pd " ++ h ++ str " 7\n" ++ rest = ('p' :: 'd' :: ' ' :: (h ++ [' ', '7'])) ++ '\n' :: rest := by simp [str]
  have hln := takeLine_ok (r := rest) ('p' :: 'd' :: ' ' :: (h ++ [' ', '7'])) 4095 (by
    intro c hc
    simp only [List.mem_cons, List.mem_append, List.not_mem_nil, or_false] at hc
    rcases hc with rfl | rfl | rfl | hc | rfl | rfl
    · decide
    · decide
    · decide
    · rintro rfl; exact absurd (hh' _ hc) (by decide)
    · decide
    · decide) (by simp; omega)
  have hsk : skip (('p' :: 'd' :: ' ' :: (h ++ [' ', '7'])) ++ '\n' :: rest) = ('p' :: 'd' :: ' ' :: (h ++ [' ', '7'])) ++ '\n' :: rest :=
    skip_cons _ (by decide)
  have hsk2 : skip (h ++ [' ', '7', '\n']) = h ++ [' ', '7', '\n'] := by
    cases h with
    | nil => exact absurd rfl hne
    | cons c t => exact skip_cons _ (isHash_plain (hh' c (by simp)))
  have s1 : scanf ([.ws] ++ lits "pd" ++ [.ws, .set HASHSIZE isHash, .ws, .lu, .ws]) ('p' :: 'd' :: ' ' :: (h ++ [' ', '7', '\n'])) =
      ([.txt h, .num 7], []) := by
    rw [show ([.ws] ++ lits "pd" ++ [.ws, .set HASHSIZE isHash, .ws, .lu, .ws] : List Dir) =
      [.ws, .lit 'p', .lit 'd', .ws, .set 32 isHash, .ws, .lu, .ws] from rfl, scanf_ws, skip_cons _ (by decide), scanf_lit, scanf_lit,
      scanf_ws, skip_space _ (by decide), hsk2, scanf, takeSet_ok (by decide) _ _ hh' (by omega)]
    simp only [hne, if_false]
    rfl
  rw [hw]
  unfold readPd
  simp only
  rw [hsk, hln]
  simp only
  rw [if_neg (by simp), show ('p' :: 'd' :: ' ' :: (h ++ [' ', '7'])) ++ ['\n'] = 'p' :: 'd' :: ' ' :: (h ++ [' ', '7', '\n']) by simp,
    readHead, s1]
  simp only
  rw [if_neg (by unfold HASHSIZE; omega)]

/-- C40 fails for a diagram with more than `n/2 + 2` components: `pd_read` returns NULL. -/
theorem C40_many_components_null (qs : QSort) (ok : Pd → Bool) (rehash : Pd → List Char) (caps : Caps) (pd : Pd) (rest : List Char)
    (hw : Writable { pd with comp := [], face := [] }) (hfit : Fits caps pd) (h32 : pd.comp.length < 2 ^ 32)
    (hn : max pd.cross.length 2 / 2 + 2 < pd.comp.length) : readPd qs ok rehash (writePd caps pd ++ rest) = .ok none := by
  have hp := hw.printable
  have q1 := hp.hash_ne
  have q2 := hp.hash
  have q3 := hp.hash_len
  have q4 := hp.uid
  have q5 := hp.ne
  have q6 := hp.ncross
  have q7 := hp.cross
  have q8 := hp.edge
  have q9 := hp.nedges
  simp only at q1 q2 q3 q4 q5 q6 q7 q8 q9
  have hce : (capsNew pd.cross.length).edges < 4294967296 := by simp only [capsNew]; omega
  have hcc : (capsNew pd.cross.length).comps < pd.comp.length := hn
  unfold Fits at hfit
  have hdl := dec_length q4
  obtain ⟨t, hwr⟩ : ∃ t, writePd caps pd ++ rest = ('p' :: 'd' :: ' ' :: (pd.hash ++ ' ' :: dec pd.uid)) ++ '\n' ::
      ('n' :: 'v' :: ' ' :: (dec pd.cross.length ++ '\n' :: (pd.cross.flatMap writeCross ++
      ('n' :: 'e' :: ' ' :: (dec pd.edge.length ++ '\n' :: (pd.edge.flatMap writeEdge ++
      ('n' :: 'c' :: ' ' :: (dec pd.comp.length ++ '\n' :: t)))))))) := by
    unfold writePd
    rw [if_neg (by omega)]
    exact ⟨_, by simp only [str]; simp; rfl⟩
  have hl := takeLine_ok (r := 'n' :: 'v' :: ' ' :: (dec pd.cross.length ++ '\n' :: (pd.cross.flatMap writeCross ++
      ('n' :: 'e' :: ' ' :: (dec pd.edge.length ++ '\n' :: (pd.edge.flatMap writeEdge ++
      ('n' :: 'c' :: ' ' :: (dec pd.comp.length ++ '\n' :: t))))))))
      ('p' :: 'd' :: ' ' :: (pd.hash ++ ' ' :: dec pd.uid)) 4095 (by
    intro c hc
    simp only [List.mem_cons, List.mem_append] at hc
    rcases hc with rfl | rfl | rfl | hc | rfl | hc
    · decide
    · decide
    · decide
    · rintro rfl; exact absurd (q2 _ hc) (by decide)
    · decide
    · rintro rfl; exact absurd (dec_isDig _ _ hc) (by decide)) (by simp; omega)
  have hsk : ∀ t, skip (('p' :: 'd' :: ' ' :: (pd.hash ++ ' ' :: dec pd.uid)) ++ t) =
    ('p' :: 'd' :: ' ' :: (pd.hash ++ ' ' :: dec pd.uid)) ++ t := fun t => skip_cons _ (by decide)
  have hpl : Plain ('n' :: 'e' :: ' ' :: (dec pd.edge.length ++ '\n' :: (pd.edge.flatMap writeEdge ++
      ('n' :: 'c' :: ' ' :: (dec pd.comp.length ++ '\n' :: t))))) := ⟨_, _, rfl, by decide, by decide, by decide⟩
  obtain ⟨r, r1, r2⟩ := readCrosses_ok hpl pd.cross (skip (pd.cross.flatMap writeCross ++
      ('n' :: 'e' :: ' ' :: (dec pd.edge.length ++ '\n' :: (pd.edge.flatMap writeEdge ++
      ('n' :: 'c' :: ' ' :: (dec pd.comp.length ++ '\n' :: t))))))) q7 (by rw [skip_skip]; exact (plain_crosses _ hpl).skip)
  have nc : scan1 (lits "nc" ++ [.ws, .lu, .ws]) ('n' :: 'c' :: ' ' :: (dec pd.comp.length ++ '\n' :: t)) =
      .ok (some (pd.comp.length, skip t)) := by
    have : scanf (lits "nc" ++ [.ws, .lu, .ws]) ('n' :: 'c' :: ' ' :: (dec pd.comp.length ++ '\n' :: t)) = ([.num pd.comp.length], skip t) := by
      rw [show (lits "nc" ++ [.ws, .lu, .ws] : List Dir) = [.lit 'n', .lit 'c', .ws, .lu, .ws] from rfl, scanf_lit, scanf_lit, scanf_ws,
        skip_space _ (by decide), skip_dec, scanf_lu _ (small_le (by omega)) (noDig_cons (by decide)), scanf_ws, skip_space _ (by decide), scanf_nil]
    rw [scan1, this]
  rw [hwr]
  unfold readPd
  simp only
  rw [hsk, hl]
  simp only
  rw [if_neg (by simp), show ('p' :: 'd' :: ' ' :: (pd.hash ++ ' ' :: dec pd.uid)) ++ ['\n'] =
    'p' :: 'd' :: ' ' :: (pd.hash ++ ' ' :: (dec pd.uid ++ ['\n'])) by simp, readHead_ok q1 q2 q3 q4]
  simp only
  rw [bind_step (scan1_head (s := "nv") (a := 'n') (b := 'v') (n := pd.cross.length) rfl (by decide) (small_le (by omega)) (by rw [skip_cons _ (by decide)])),
    idx_lt (by omega), if_neg (by omega)]
  unfold readBody
  simp only
  rw [bind_step r1, bind_step (scan1_head (s := "ne") rfl (by decide) (small_le (by omega)) r2), idx_lt (by omega), if_neg (by omega),
    bind_step (readEdges_ok _ _ q8 rfl), skip_cons _ (by decide), bind_step nc, idx_lt (by omega), if_pos hcc]
  rfl

/-- Text without the letters `t` and `p`. -/
def Quiet (l : List Char) : Prop := ∀ c ∈ l, c ≠ 't' ∧ c ≠ 'p'

theorem Quiet.append {a b : List Char} (ha : Quiet a) (hb : Quiet b) : Quiet (a ++ b) := by
  intro c hc
  rcases List.mem_append.mp hc with h | h
  · exact ha c h
  · exact hb c h

theorem quiet_dec (n : Nat) : Quiet (dec n) := by
  intro c hc
  have := dec_isDig n c hc
  constructor <;> rintro rfl <;> exact absurd this (by decide)

theorem quiet_str {s : String} (h : ∀ c ∈ s.toList, c ≠ 't' ∧ c ≠ 'p') : Quiet (str s) := h

theorem quiet_edges (l : List Edge) : Quiet (l.flatMap writeEdge) := by
  intro c hc
  obtain ⟨e, _, he⟩ := List.mem_flatMap.mp hc
  exact (((((((quiet_dec _).append (quiet_str (by decide))).append (quiet_dec _)).append (quiet_str (by decide))).append (quiet_dec _)).append
    (quiet_str (by decide))).append (quiet_dec _)).append (quiet_str (by decide)) c he

theorem quiet_nums : ∀ l, Quiet (writeNums l)
  | [] => by intro c hc; simp [writeNums] at hc
  | e :: l => ((quiet_dec _).append (quiet_str (by decide))).append (quiet_nums l)

theorem quiet_signed : ∀ l, Quiet (writeSigned l)
  | [] => by intro c hc; simp [writeSigned] at hc
  | (e, o) :: l => by
    unfold writeSigned
    refine (((Quiet.append ?_ (quiet_dec _)).append (quiet_str (by decide))).append (quiet_signed l))
    split
    · exact quiet_str (by decide)
    · exact quiet_str (by decide)

theorem quiet_faces (l : List Face) : Quiet (l.flatMap writeFace) := by
  intro c hc
  obtain ⟨e, _, he⟩ := List.mem_flatMap.mp hc
  exact (((quiet_dec _).append (quiet_str (by decide))).append (quiet_signed _)).append (quiet_str (by decide)) c he

theorem findTag_quiet {r : List Char} : ∀ (l : List Char), Quiet l → findTag (l ++ 't' :: 'a' :: 'g' :: r) = .ok r
  | [], _ => rfl
  | c :: l, h => by
    have hc := (h c (by simp)).1
    have hl := findTag_quiet (r := r) l (fun c hc => h c (by simp [hc]))
    rw [List.cons_append, findTag.eq_2]
    · exact hl
    · intro r' h1 h2
      exact absurd h1 hc

/-- C40: of a diagram without crossings only the tag of its component comes back: `pd_read`
builds a new unknot, without the hash and uid that were written, and skips to the next letter
`p`. -/
theorem C40_unknot (qs : QSort) (ok : Pd → Bool) (rehash : Pd → List Char) (caps : Caps) (pd : Pd) (c : Comp) (rest : List Char)
    (hfit : Fits caps pd) (hne : pd.hash ≠ []) (hh : ∀ c ∈ pd.hash, c.isAlphanum = true ∨ c = '+' ∨ c = '/') (hl : pd.hash.length ≤ 31)
    (hu : pd.uid < 2 ^ 64) (h0 : pd.cross = []) (hc : pd.comp = [c]) (ht : 33 ≤ c.tag ∧ c.tag ≤ 126) :
    readPd qs ok rehash (writePd caps pd ++ rest) = .ok (some (.unknot c.tag, rest.dropWhile (fun x => x ≠ 'p'))) := by
  have hu' : pd.uid ≤ ulongMax := by unfold ulongMax; omega
  have hh' : ∀ c ∈ pd.hash, isHash c = true := fun c hc => hash_chars c (hh c hc)
  have hdl := dec_length hu'
  obtain ⟨t3, t4⟩ := tag_print c.tag (by omega) ht.1
  unfold Fits at hfit
  generalize hb : str "nf " ++ dec pd.face.length ++ str "\n" ++ pd.face.flatMap writeFace = B
  have hqB : Quiet B := by
    rw [← hb]
    exact (((quiet_str (by decide)).append (quiet_dec _)).append (quiet_str (by decide))).append (quiet_faces _)
  generalize ha : str "ne " ++ dec pd.edge.length ++ str "\n" ++ pd.edge.flatMap writeEdge ++
    (str "nc 1\n" ++ dec c.edge.length ++ str " : " ++ writeNums c.edge) = A
  have hqA : Quiet A := by
    rw [← ha]
    exact ((((quiet_str (by decide)).append (quiet_dec _)).append (quiet_str (by decide))).append (quiet_edges _)).append
      ((((quiet_str (by decide)).append (quiet_dec _)).append (quiet_str (by decide))).append (quiet_nums _))
  have hskA : ∀ t, skip (A ++ t) = A ++ t := by
    intro t
    rw [← ha]
    simp only [List.append_assoc]
    exact skip_cons _ (by decide)
  have hskB : ∀ t, skip (B ++ t) = B ++ t := by
    intro t
    rw [← hb]
    simp only [List.append_assoc]
    exact skip_cons _ (by decide)
  have hwr : writePd caps pd ++ rest = ('p' :: 'd' :: ' ' :: (pd.hash ++ ' ' :: dec pd.uid)) ++ '\n' ::
      ('n' :: 'v' :: ' ' :: (dec 0 ++ '\n' :: (A ++ 't' :: 'a' :: 'g' :: ' ' :: Char.ofNat c.tag :: '\n' :: (B ++ rest)))) := by
    unfold writePd
    rw [if_neg (by omega), ← ha, ← hb, h0, hc]
    simp [str, writeComp, dec, digitsF]
  have hln := takeLine_ok (r := 'n' :: 'v' :: ' ' :: (dec 0 ++ '\n' :: (A ++ 't' :: 'a' :: 'g' :: ' ' :: Char.ofNat c.tag :: '\n' :: (B ++ rest))))
      ('p' :: 'd' :: ' ' :: (pd.hash ++ ' ' :: dec pd.uid)) 4095 (by
    intro c hc
    simp only [List.mem_cons, List.mem_append] at hc
    rcases hc with rfl | rfl | rfl | hc | rfl | hc
    · decide
    · decide
    · decide
    · rintro rfl; exact absurd (hh' _ hc) (by decide)
    · decide
    · rintro rfl; exact absurd (dec_isDig _ _ hc) (by decide)) (by simp; omega)
  have hsk : ∀ t, skip (('p' :: 'd' :: ' ' :: (pd.hash ++ ' ' :: dec pd.uid)) ++ t) =
    ('p' :: 'd' :: ' ' :: (pd.hash ++ ' ' :: dec pd.uid)) ++ t := fun t => skip_cons _ (by decide)
  rw [hwr]
  unfold readPd
  simp only
  rw [hsk, hln]
  simp only
  rw [if_neg (by simp), show ('p' :: 'd' :: ' ' :: (pd.hash ++ ' ' :: dec pd.uid)) ++ ['\n'] =
    'p' :: 'd' :: ' ' :: (pd.hash ++ ' ' :: (dec pd.uid ++ ['\n'])) by simp, readHead_ok hne hh' (by omega) hu']
  simp only
  rw [bind_step (scan1_head (s := "nv") (a := 'n') (b := 'v') (n := 0) rfl (by decide) (by unfold ulongMax; omega) (by rw [skip_cons _ (by decide)])),
    idx_lt (by omega), if_pos rfl, hskA]
  unfold readUnknot
  rw [findTag_quiet _ hqA, ok_bind, scanf_ws, skip_space _ (by decide), skip_cons _ t4]
  have : scanf [.chr, .ws] (Char.ofNat c.tag :: '\n' :: (B ++ rest)) = ([.txt [Char.ofNat c.tag]], B ++ rest) := by
    rw [scanf]
    simp only [scanf_ws, scanf_nil]
    rw [skip_space _ (by decide), hskB]
  rw [this]
  simp only [t3]
  rw [List.dropWhile_append_of_pos (by
    intro x hx
    simpa using (hqB x hx).2)]

/-! ## Examples -/

/-- The Hopf link with its components and faces. -/
def hopfPd : Pd :=
  { hash := str "AgQ+/4", uid := 12345, cross := [⟨0, 2, 1, 3, .pos⟩, ⟨0, 3, 1, 2, .neg⟩],
    edge := [⟨0, 0, 1, 0⟩, ⟨1, 2, 0, 2⟩, ⟨1, 3, 0, 1⟩, ⟨0, 3, 1, 1⟩], comp := [⟨[0, 1], 65⟩, ⟨[2, 3], 66⟩],
    face := [⟨[0, 2], [.pos, .neg]⟩, ⟨[0, 3], [.neg, .pos]⟩, ⟨[1, 2], [.neg, .pos]⟩, ⟨[1, 3], [.pos, .neg]⟩] }

theorem hopfPd_writable : Writable hopfPd where
  hash_ne := by decide
  hash := by decide
  hash_len := by decide
  uid := by decide
  ne := by decide
  sound := by decide
  size := by decide
  ncomps := by decide
  nfaces := by decide
  tag := by decide
  comp := by decide
  face := by decide
  orient := by decide

example : Fits (capsNew 2) hopfPd ∧ (∀ c ∈ hopfPd.cross, c.e0 ≤ c.e1 ∧ c.e0 ≤ c.e2 ∧ c.e0 < c.e3) ∧
    hopfPd.cross.Pairwise (fun a b => ([a.e0, a.e1, a.e2, a.e3] : List Nat) < [b.e0, b.e1, b.e2, b.e3]) ∧ ¬ str "unset" <:+: hopfPd.hash := by
  refine ⟨⟨by decide, by decide, by decide, by decide⟩, by decide, by decide, by decide⟩

example : String.ofList (writePd (capsNew 2) hopfPd) =
    "pd AgQ+/4 12345\nnv 2\n0 2 1 3 +\n0 3 1 2 -\nne 4\n1,0 -> 0,0 \n0,2 -> 1,2 \n0,1 -> 1,3 \n1,1 -> 0,3 \n\
     nc 2\n2 : 0 1 tag A\n2 : 2 3 tag B\nnf 4\n2 : + 0 - 2 \n2 : - 0 + 3 \n2 : - 1 + 2 \n2 : + 1 - 3 \n" := by decide +kernel

example : readPd insQSort (fun _ => true) (fun _ => []) (writePd (capsNew 2) hopfPd ++ str "  \npd x") = .ok (some (.code hopfPd, str "pd x")) := by
  decide +kernel

/-- Five separate loops, with room for five components. -/
def kinksPd : Pd :=
  { hash := str "x", uid := 0, cross := fiveKinks, edge := fiveKinksEdge,
    comp := [⟨[0, 1], 65⟩, ⟨[2, 3], 66⟩, ⟨[4, 5], 67⟩, ⟨[6, 7], 68⟩, ⟨[8, 9], 69⟩], face := [] }

theorem kinksPd_writable : Writable { kinksPd with comp := [], face := [] } where
  hash_ne := by decide
  hash := by decide
  hash_len := by decide
  uid := by decide
  ne := by decide
  sound := by decide
  size := by decide
  ncomps := by decide
  nfaces := by decide
  tag := by decide
  comp := by decide
  face := by decide
  orient := by decide

example : Fits (capsNew 8) kinksPd ∧ max kinksPd.cross.length 2 / 2 + 2 < kinksPd.comp.length := by
  refine ⟨⟨by decide, by decide, by decide, by decide⟩, by decide⟩

example : readPd insQSort (fun _ => true) (fun _ => []) (writePd (capsNew 8) kinksPd) = .ok none := by decide +kernel

/-- `pd_build_unknot(0)` with tag `C`. -/
def unknotPd : Pd :=
  { hash := str "h", uid := 5, cross := [], edge := [⟨UNSET_IDX, UNSET_POS, UNSET_IDX, UNSET_POS⟩], comp := [⟨[0], 67⟩],
    face := [⟨[0], [.pos]⟩, ⟨[0], [.neg]⟩] }

example : Fits (capsNew 1) unknotPd := ⟨by decide, by decide, by decide, by decide⟩

example : readPd insQSort (fun _ => true) (fun _ => []) (writePd (capsNew 1) unknotPd ++ str "pd") = .ok (some (.unknot 67, str "pd")) := by
  decide +kernel

end Plc.Io
