import Verif.Model.PolyText
import Verif.Props.PolyRead

/-!
# C104: writing for lmpoly and reading back
-/

namespace Plc.Poly

open Plc.Io Plc.Vect

/-- The text of successive coefficients, from the power `l` on. -/
def emit : Int → List Int → List Char
  | _, [] => []
  | l, c :: t => (if l = 0 then '[' :: (decI c ++ [']', ' ']) else decI c ++ [' ']) ++ emit (l + 1) t

theorem emit_append : ∀ (a b : List Int) (l : Int), emit l (a ++ b) = emit l a ++ emit (l + a.length) b
  | [], b, l => by simp [emit]
  | c :: t, b, l => by
    have : l + 1 + (t.length : Int) = l + ((t.length + 1 : Nat) : Int) := by push_cast; omega
    rw [List.cons_append, emit, emit, emit_append t b, List.length_cons, this, List.append_assoc]

theorem cat_inv {cap : Int} {b s b' : List Char} (h : cat cap b s = .ok b') : b' = b ++ s := by
  unfold cat at h
  split at h
  · exact (Except.ok.inj h).symm
  · cases h

theorem writeL_inv {cap : Int} {b b' : List Char} {c l : Int} (h : writeL cap b c l = .ok b') : b' = b ++ emit l [c] := by
  unfold writeL at h
  simp only [emit]
  split at h
  · next q => rw [cat_inv h, if_pos q]; simp [str]
  · next q => rw [cat_inv h, if_neg q]; simp [str]

theorem writeZeros_inv {cap : Int} : ∀ (n : Nat) (l : Int) (b b' : List Char), writeZeros cap n l b = .ok b' → b' = b ++ emit l (List.replicate n 0)
  | 0, l, b, b', h => by rw [writeZeros] at h; simp [emit, (Except.ok.inj h).symm]
  | n + 1, l, b, b', h => by
    rw [writeZeros] at h
    obtain ⟨b1, h1, h2⟩ := bind_ok_iff.mp h
    rw [writeZeros_inv n _ _ _ h2, writeL_inv h1, List.append_assoc]
    congr 1
    rw [show List.replicate (n + 1) (0 : Int) = [0] ++ List.replicate n 0 from rfl, emit_append]
    rfl

theorem coefs_zero (m : Int) : ∀ (n : Nat) (l : Int), (coefs m l (List.replicate n 0)).filter (fun x => x.coeff ≠ 0) = []
  | 0, l => rfl
  | n + 1, l => by
    rw [List.replicate_succ, coefs, List.filter_cons_of_neg (by simp)]
    exact coefs_zero m n (l + 1)

/-- What the coefficients written for a list of monomials look like. -/
theorem writeRest_inv {cap : Int} (m : Int) : ∀ (xs : List Mono) (l : Int) (b b' : List Char), (∀ x ∈ xs, x.m = m ∧ x.coeff.natAbs ≤ intMax) →
    (∀ x ∈ xs, l < x.l) → xs.Pairwise (fun a b => a.l < b.l) → writeRest cap l b xs = .ok b' →
    ∃ cs : List Int, b' = b ++ emit (l + 1) cs ∧ (coefs m (l + 1) cs).filter (fun x => x.coeff ≠ 0) = xs.filter (fun x => x.coeff ≠ 0) ∧
      (∀ x ∈ xs, x.l ≤ l + cs.length) ∧ ∀ v ∈ cs, v.natAbs ≤ intMax
  | [], l, b, b', _, _, _, h => by
    rw [writeRest] at h
    exact ⟨[], by simp [emit, (Except.ok.inj h).symm], rfl, by simp, by simp⟩
  | x :: t, l, b, b', hm, hl, hp, h => by
    rw [writeRest] at h
    obtain ⟨b1, h1, h⟩ := bind_ok_iff.mp h
    obtain ⟨b2, h2, h3⟩ := bind_ok_iff.mp h
    have hx := hl x (by simp)
    obtain ⟨hp1, hp2⟩ := List.pairwise_cons.mp hp
    obtain ⟨cs, e1, e2, e3, e4⟩ := writeRest_inv m t x.l b2 b' (fun y hy => hm y (by simp [hy])) hp1 hp2 h3
    set n := (x.l - (l + 1)).toNat with hn
    have hnl : l + 1 + (n : Int) = x.l := by omega
    refine ⟨List.replicate n 0 ++ ([x.coeff] ++ cs), ?_, ?_, ?_, ?_⟩
    · rw [e1, writeL_inv h2, writeZeros_inv _ _ _ _ h1, emit_append, emit_append]
      simp only [List.length_replicate, List.length_singleton, List.append_assoc, hnl]
      rfl
    · rw [coefs_append, coefs_append, List.filter_append, coefs_zero, List.nil_append]
      simp only [List.length_replicate, hnl]
      have hxe : coefs m x.l [x.coeff] = [x] := by
        rw [coefs, coefs, ← (hm x (by simp)).1]
      rw [hxe, List.filter_append]
      show List.filter _ [x] ++ List.filter _ (coefs m (x.l + 1) cs) = _
      rw [e2, ← List.filter_append]
      rfl
    · intro y hy
      simp only [List.length_append, List.length_replicate, List.length_singleton]
      rcases List.mem_cons.mp hy with rfl | hy
      · push_cast; omega
      · have := e3 y hy; push_cast; omega
    · intro v hv
      simp only [List.mem_append, List.mem_replicate, List.mem_singleton] at hv
      rcases hv with hv | hv | hv
      · rw [hv.2]; simp
      · rw [hv]; exact (hm x (by simp)).2
      · exact e4 v hv

theorem emit_neg : ∀ (pre : List Int) (l : Int), l + pre.length ≤ 0 → emit l pre = pre.flatMap (fun v => decI v ++ [' '])
  | [], l, _ => rfl
  | c :: t, l, h => by
    rw [List.length_cons] at h; push_cast at h
    rw [emit, if_neg (by omega), emit_neg t (l + 1) (by omega), List.flatMap_cons]

theorem emit_pos : ∀ (post : List Int) (l : Int), 0 < l → emit l post = post.flatMap (fun v => decI v ++ [' '])
  | [], l, _ => rfl
  | c :: t, l, h => by rw [emit, if_neg (by omega), emit_pos t (l + 1) (by omega), List.flatMap_cons]

theorem shift : ∀ l : List Int, ' ' :: l.flatMap (fun v => decI v ++ [' ']) = l.flatMap (fun v => ' ' :: decI v) ++ [' ']
  | [] => rfl
  | c :: t => by
    rw [List.flatMap_cons, List.flatMap_cons, List.append_assoc, List.append_assoc, ← shift t]
    simp

theorem emit_row (r : Row) : emit (-(r.pre.length : Int)) (r.pre ++ r.mid :: r.post) = r.text ++ [' '] := by
  rw [emit_append, emit_neg _ _ (by omega), emit, if_pos (by omega), emit_pos _ _ (by omega)]
  unfold Row.text
  have := shift r.post
  simp only [List.cons_append, List.append_assoc, List.nil_append]
  rw [← this]

/-- A row in its place. -/
def placed (m : Int) (r : Row) : List Char := if m = 0 then '[' :: (r.text ++ [']', 'N']) else r.text ++ ['N']

theorem writeLine_inv {cap : Int} {b b' : List Char} {line : List Mono} (m : Int) (hm : ∀ x ∈ line, x.m = m ∧ x.coeff.natAbs ≤ intMax)
    (hp : line.Pairwise (fun a b => a.l < b.l)) (h : writeLine cap b line = .ok b') :
    ∃ r : Row, b' = b ++ placed m r ∧ (coefs m (-(r.pre.length : Int)) (r.pre ++ r.mid :: r.post)).filter (fun x => x.coeff ≠ 0) =
      line.filter (fun x => x.coeff ≠ 0) ∧ r.Ok := by
  unfold writeLine at h
  cases line with
  | nil => cases h
  | cons x t =>
    simp only at h
    have hxm := (hm x (by simp)).1
    -- the line with its fake monomials
    obtain ⟨y, u, hl, hy1, hy2, hy3, hy4, hy5⟩ : ∃ y u, (if x.l > 0 then (⟨0, 0, x.m⟩ : Mono) :: (if ((x :: t).getLastD x).l < 0 then (x :: t) ++ [⟨0, 0, x.m⟩] else x :: t)
        else (if ((x :: t).getLastD x).l < 0 then (x :: t) ++ [⟨0, 0, x.m⟩] else x :: t)) = y :: u ∧ y.l ≤ 0 ∧ (∃ z ∈ y :: u, 0 ≤ z.l) ∧
        (∀ z ∈ y :: u, z.m = m ∧ z.coeff.natAbs ≤ intMax) ∧ (y :: u).Pairwise (fun a b => a.l < b.l) ∧
        (y :: u).filter (fun x => x.coeff ≠ 0) = (x :: t).filter (fun x => x.coeff ≠ 0) := by
      have hlast : (x :: t).getLastD x = (x :: t).getLast (by simp) := by
        rw [List.getLastD_eq_getLast?, List.getLast?_eq_getLast_of_ne_nil (by simp)]; rfl
      have hle : ∀ z ∈ x :: t, z.l ≤ ((x :: t).getLastD x).l := by
        intro z hz
        rw [hlast]
        have := List.dropLast_append_getLast (l := x :: t) (by simp)
        rw [← this] at hz hp
        rcases List.mem_append.mp hz with hz | hz
        · exact le_of_lt ((List.pairwise_append.mp hp).2.2 z hz _ (by simp))
        · rw [List.mem_singleton.mp hz]
      have hmem : (x :: t).getLastD x ∈ x :: t := by rw [hlast]; exact List.getLast_mem _
      obtain ⟨hp1, hp2⟩ := List.pairwise_cons.mp hp
      by_cases q1 : x.l > 0
      · have q2 : ¬ ((x :: t).getLastD x).l < 0 := by have := hle x (by simp); omega
        rw [if_pos q1, if_neg q2]
        refine ⟨⟨0, 0, x.m⟩, x :: t, rfl, le_refl _, ⟨⟨0, 0, x.m⟩, by simp, le_refl _⟩, ?_, ?_, ?_⟩
        · intro z hz
          rcases List.mem_cons.mp hz with rfl | hz
          · exact ⟨hxm, by simp⟩
          · exact hm z hz
        · refine List.pairwise_cons.mpr ⟨?_, hp⟩
          intro z hz
          show 0 < z.l
          rcases List.mem_cons.mp hz with rfl | hz
          · exact q1
          · have := hp1 z hz; omega
        · rw [List.filter_cons_of_neg (by simp)]
      · rw [if_neg q1]
        by_cases q2 : ((x :: t).getLastD x).l < 0
        · rw [if_pos q2]
          refine ⟨x, t ++ [⟨0, 0, x.m⟩], rfl, by omega, ⟨⟨0, 0, x.m⟩, by simp, le_refl _⟩, ?_, ?_, ?_⟩
          · intro z hz
            rw [← List.cons_append] at hz
            rcases List.mem_append.mp hz with hz | hz
            · exact hm z hz
            · rw [List.mem_singleton.mp hz]; exact ⟨hxm, by simp⟩
          · rw [← List.cons_append]
            refine List.pairwise_append.mpr ⟨hp, by simp, ?_⟩
            intro z hz w hw
            rw [List.mem_singleton.mp hw]
            show z.l < 0
            have := hle z hz; omega
          · rw [← List.cons_append, List.filter_append]; simp
        · rw [if_neg q2]
          exact ⟨x, t, rfl, by omega, ⟨_, hmem, by omega⟩, hm, hp, rfl⟩
    rw [hl] at h
    simp only at h
    obtain ⟨b1, b2, b3, b4, h1, h2, h3, h4, h5⟩ : ∃ b1 b2 b3 b4, (if x.m = 0 then cat cap b (str "[") else .ok b) = .ok b1 ∧
        writeL cap b1 y.coeff y.l = .ok b2 ∧ writeRest cap y.l b2 u = .ok b3 ∧
        (if x.m = 0 then cat cap b3.dropLast (str "]") else .ok b3.dropLast) = .ok b4 ∧ cat cap b4 (str "N") = .ok b' := by
      by_cases q : x.m = 0
      · simp only [if_pos q] at h ⊢
        obtain ⟨b1, h1, h⟩ := bind_ok_iff.mp h
        obtain ⟨b2, h2, h⟩ := bind_ok_iff.mp h
        obtain ⟨b3, h3, h⟩ := bind_ok_iff.mp h
        obtain ⟨b4, h4, h5⟩ := bind_ok_iff.mp h
        exact ⟨b1, b2, b3, b4, h1, h2, h3, h4, h5⟩
      · simp only [if_neg q] at h ⊢
        obtain ⟨b1, h1, h⟩ := bind_ok_iff.mp h
        obtain ⟨b2, h2, h⟩ := bind_ok_iff.mp h
        obtain ⟨b3, h3, h⟩ := bind_ok_iff.mp h
        obtain ⟨b4, h4, h5⟩ := bind_ok_iff.mp h
        exact ⟨b1, b2, b3, b4, h1, h2, h3, h4, h5⟩
    obtain ⟨hq1, hq2⟩ := List.pairwise_cons.mp hy4
    obtain ⟨cs, e1, e2, e3, e4⟩ := writeRest_inv m u y.l b2 b3 (fun z hz => hy3 z (by simp [hz])) hq1 hq2 h3
    set k := (-y.l).toNat with hk
    have hkl : -(k : Int) = y.l := by omega
    have hlen : k < (y.coeff :: cs).length := by
      obtain ⟨z, hz, hz0⟩ := hy2
      rw [List.length_cons]
      rcases List.mem_cons.mp hz with rfl | hz
      · omega
      · have := e3 z hz; omega
    set cs0 := y.coeff :: cs with hcs0
    let r : Row := ⟨cs0.take k, cs0[k], cs0.drop (k + 1)⟩
    have hr : r.pre ++ r.mid :: r.post = cs0 := by
      show cs0.take k ++ cs0[k] :: cs0.drop (k + 1) = cs0
      rw [← List.drop_eq_getElem_cons hlen, List.take_append_drop]
    have hpre : r.pre.length = k := by
      show (cs0.take k).length = k
      rw [List.length_take]; omega
    have hem : b3 = b1 ++ (r.text ++ [' ']) := by
      rw [← emit_row r, hr, hpre, hkl, e1, writeL_inv h2, List.append_assoc]
      congr 1
      rw [hcs0, show y.coeff :: cs = [y.coeff] ++ cs from rfl, emit_append]
      rfl
    have hdl : b3.dropLast = b1 ++ r.text := by
      rw [hem, ← List.append_assoc, List.dropLast_concat]
    refine ⟨r, ?_, ?_, ?_⟩
    · rw [hdl] at h4
      rw [cat_inv h5]
      unfold placed
      rw [hxm] at h1 h4
      by_cases q : m = 0
      · rw [if_pos q] at h1 h4 ⊢
        rw [cat_inv h4, cat_inv h1]
        simp [str]
      · rw [if_neg q] at h1 h4 ⊢
        rw [← Except.ok.inj h4, ← Except.ok.inj h1]
        simp [str]
    · rw [hr, hpre, hkl, ← hy5, hcs0, coefs]
      have hye : (⟨y.coeff, y.l, m⟩ : Mono) = y := by rw [← (hy3 y (by simp)).1]
      rw [hye]
      show List.filter _ ([y] ++ coefs m (y.l + 1) cs) = List.filter _ ([y] ++ u)
      rw [List.filter_append, e2, List.filter_append]
    · intro v hv
      rw [hr, hcs0] at hv
      rcases List.mem_cons.mp hv with rfl | hv
      · exact (hy3 y (by simp)).2
      · exact e4 v hv

/-- Rows in their places, from the power `m` on. -/
def placedRows : Int → List Row → List Char
  | _, [] => []
  | m, r :: t => placed m r ++ placedRows (m + 1) t

theorem placedRows_append : ∀ (a b : List Row) (m : Int), placedRows m (a ++ b) = placedRows m a ++ placedRows (m + a.length) b
  | [], b, m => by simp [placedRows]
  | r :: t, b, m => by
    have : m + 1 + (t.length : Int) = m + ((t.length + 1 : Nat) : Int) := by push_cast; omega
    rw [List.cons_append, placedRows, placedRows, placedRows_append t b, List.length_cons, this, List.append_assoc]

theorem allCoefs_append : ∀ (a b : List Row) (m : Int), allCoefs m (a ++ b) = allCoefs m a ++ allCoefs (m + a.length) b
  | [], b, m => by simp [allCoefs]
  | r :: t, b, m => by
    have : m + 1 + (t.length : Int) = m + ((t.length + 1 : Nat) : Int) := by push_cast; omega
    rw [List.cons_append, allCoefs, allCoefs, allCoefs_append t b, List.length_cons, this, List.append_assoc]

theorem writeGap_inv {cap : Int} : ∀ (n : Nat) (m : Int) (b b' : List Char), (0 < m ∨ m + n ≤ 0) → writeGap cap n b = .ok b' →
    b' = b ++ placedRows m (List.replicate n ⟨[], 0, []⟩)
  | 0, m, b, b', _, h => by rw [writeGap] at h; simp [placedRows, (Except.ok.inj h).symm]
  | n + 1, m, b, b', hm, h => by
    rw [writeGap] at h
    obtain ⟨b1, h1, h2⟩ := bind_ok_iff.mp h
    push_cast at hm
    rw [writeGap_inv n (m + 1) b1 b' (by omega) h2, cat_inv h1, List.replicate_succ, placedRows, List.append_assoc]
    congr 2
    unfold placed
    rw [if_neg (by omega)]
    rfl

theorem gap_coefs : ∀ (n : Nat) (m : Int), (allCoefs m (List.replicate n ⟨[], 0, []⟩)).filter (fun x => x.coeff ≠ 0) = []
  | 0, m => rfl
  | n + 1, m => by
    rw [List.replicate_succ, allCoefs, List.filter_append, gap_coefs n (m + 1)]
    rfl

/-- The order of `lmpoly_cmp`, strictly. -/
def Before (a b : Mono) : Prop := a.m < b.m ∨ (a.m = b.m ∧ a.l < b.l)

theorem writeLines_inv {cap : Int} : ∀ (p line : List Mono) (m : Int) (b b' : List Char), line ≠ [] → (∀ x ∈ line, x.m = m) →
    (∀ x ∈ line ++ p, x.coeff.natAbs ≤ intMax) → (line ++ p).Pairwise Before → (0 < m ∨ ∃ z ∈ line ++ p, z.m = 0) →
    writeLines cap line b p = .ok b' →
    ∃ rows : List Row, b' = b ++ placedRows m rows ∧ (allCoefs m rows).filter (fun x => x.coeff ≠ 0) = (line ++ p).filter (fun x => x.coeff ≠ 0) ∧
      (∀ z ∈ line ++ p, z.m < m + rows.length) ∧ ∀ r ∈ rows, r.Ok
  | [], line, m, b, b', hne, hm, hc, hp, _, h => by
    rw [writeLines] at h
    rw [List.append_nil] at hc hp ⊢
    have hp' : line.Pairwise (fun a b => a.l < b.l) := by
      refine List.Pairwise.imp_of_mem ?_ hp
      intro a c ha hc h
      rcases h with h | h
      · rw [hm a ha, hm c hc] at h; omega
      · exact h.2
    obtain ⟨r, h1, h2, h3⟩ := writeLine_inv m (fun x hx => ⟨hm x hx, hc x hx⟩) hp' h
    refine ⟨[r], by rw [h1]; simp [placedRows], ?_, ?_, ?_⟩
    · rw [← h2]; simp [allCoefs]
    · intro z hz; rw [hm z hz]; simp
    · intro r' hr'; rw [List.mem_singleton.mp hr']; exact h3
  | x :: t, line, m, b, b', hne, hm, hc, hp, hz, h => by
    rw [writeLines] at h
    have hassoc : line ++ x :: t = (line ++ [x]) ++ t := by simp
    cases hl : line.getLast? with
    | none => rw [hl] at h; cases h
    | some y =>
      have hy : y ∈ line := List.mem_of_getLast? hl
      rw [hl] at h
      simp only at h
      split at h
      · next q =>
        rw [hassoc] at hc hp hz ⊢
        refine writeLines_inv t (line ++ [x]) m b b' (by simp) ?_ hc hp hz h
        intro w hw
        rcases List.mem_append.mp hw with hw | hw
        · exact hm w hw
        · rw [List.mem_singleton.mp hw, ← q]; exact hm y hy
      · next q =>
        obtain ⟨b1, h1, h⟩ := bind_ok_iff.mp h
        obtain ⟨b2, h2, h3⟩ := bind_ok_iff.mp h
        obtain ⟨hpl, hpt, hpc⟩ := List.pairwise_append.mp hp
        have hym := hm y hy
        have hxm : m < x.m := by
          rcases hpc y hy x (by simp) with h | h
          · omega
          · exact absurd h.1 q
        have hp' : line.Pairwise (fun a b => a.l < b.l) := by
          refine List.Pairwise.imp_of_mem ?_ hpl
          intro a c ha hc h
          rcases h with h | h
          · rw [hm a ha, hm c hc] at h; omega
          · exact h.2
        obtain ⟨r, e1, e2, e3⟩ := writeLine_inv m (fun x hx => ⟨hm x hx, hc x (by simp [hx])⟩) hp' h1
        have hxt : ∀ z ∈ x :: t, x.m ≤ z.m := by
          intro z hz
          rcases List.mem_cons.mp hz with rfl | hz
          · exact le_refl _
          · rcases (List.pairwise_cons.mp hpt).1 z hz with h | h <;> omega
        -- where the power 0 is
        have hzero : 0 ≤ m ∨ ∃ z ∈ x :: t, z.m = 0 := by
          rcases hz with hz | ⟨z, hz, hz0⟩
          · left; omega
          · rcases List.mem_append.mp hz with hz | hz
            · left; rw [← hz0, hm z hz]
            · right; exact ⟨z, hz, hz0⟩
        set n := (x.m - (y.m + 1)).toNat with hn
        have hnm : m + 1 + (n : Int) = x.m := by omega
        have hgap : 0 < m + 1 ∨ m + 1 + (n : Int) ≤ 0 := by
          rcases hzero with h | ⟨z, hz, hz0⟩
          · left; omega
          · right; have := hxt z hz; omega
        obtain ⟨rows, f1, f2, f3, f4⟩ := writeLines_inv t [x] x.m b2 b' (by simp) (by simp) (fun w hw => hc w (by
            rw [hassoc, List.append_assoc]; exact List.mem_append_right _ hw)) hpt
          (by
            rcases hzero with h | h
            · left; omega
            · right; exact h) h3
        have g1 := writeGap_inv n (m + 1) b1 b2 hgap h2
        refine ⟨[r] ++ (List.replicate n ⟨[], 0, []⟩ ++ rows), ?_, ?_, ?_, ?_⟩
        · rw [f1, g1, e1, placedRows_append, placedRows_append]
          simp only [List.length_singleton, List.length_replicate, Nat.cast_one, hnm]
          simp [placedRows]
        · rw [allCoefs_append, allCoefs_append, List.filter_append, List.filter_append]
          simp only [List.length_singleton, List.length_replicate, Nat.cast_one, hnm]
          have hf : (line ++ x :: t).filter (fun x => decide (x.coeff ≠ 0)) = line.filter (fun x => decide (x.coeff ≠ 0)) ++
            ([x] ++ t).filter (fun x => decide (x.coeff ≠ 0)) := List.filter_append ..
          rw [gap_coefs, f2, List.nil_append, hf]
          congr 1
          rw [← e2]; simp [allCoefs]
        · intro z hz
          simp only [List.length_append, List.length_singleton, List.length_replicate]
          push_cast
          rcases List.mem_append.mp hz with hz | hz
          · rw [hm z hz]; omega
          · have := f3 z hz; omega
        · intro r' hr'
          rcases List.mem_append.mp hr' with h | h
          · rw [List.mem_singleton.mp h]; exact e3
          · rcases List.mem_append.mp h with h | h
            · rw [(List.mem_replicate.mp h).2]
              intro v hv
              simp at hv
              rw [hv]; simp
            · exact f4 r' h

theorem placedRows_off : ∀ (rows : List Row) (m : Int), (0 < m ∨ m + rows.length ≤ 0) → placedRows m rows = rows.flatMap (fun r => r.text ++ ['N'])
  | [], m, _ => rfl
  | r :: t, m, h => by
    rw [List.length_cons] at h; push_cast at h
    rw [placedRows, placedRows_off t (m + 1) (by omega), List.flatMap_cons]
    unfold placed
    rw [if_neg (by omega)]

theorem placedRows_lm (before : List Row) (r0 : Row) (after : List Row) :
    placedRows (-(before.length : Int)) (before ++ r0 :: after) ++ [' '] = lmText before r0 after true := by
  rw [placedRows_append, placedRows_off _ _ (by omega), placedRows, placedRows_off _ _ (by omega)]
  unfold placed
  rw [if_pos (by omega)]
  simp [lmText]

theorem count_lines : ∀ rows : List Row, (rows.flatMap (fun r => r.text ++ ['N'])).count ' ' = (rows.map (fun r => r.pre.length + r.post.length)).sum
  | [] => rfl
  | r :: t => by
    rw [List.flatMap_cons, List.count_append, count_lines t, List.map_cons, List.sum_cons, List.count_append, count_row]
    simp

/-- **C104**: a polynomial with distinct powers, coefficients other than 0 and a monomial with `m^0`, written by `polynomial_to_lmpoly` inside its buffer, is
read back by `lmpoly_to_polynomial`, if the text has as many spaces as there are monomials. -/
theorem C104_roundtrip (Q : QSort) (p : List Mono) (t : List Char) (hc : ∀ x ∈ p, x.coeff ≠ 0 ∧ x.coeff.natAbs ≤ intMax)
    (hd : p.Pairwise (fun a b => ¬ (a.l = b.l ∧ a.m = b.m))) (hz : ∃ z ∈ p, z.m = 0) (ht : toLmpoly Q p = .ok t) (hs : p.length ≤ t.count ' ') :
    ∃ p', ofLmpoly Q t = .ok p' ∧ p'.Perm p := by
  have hperm := Q.perm lmle p
  have hsort : (Q.sort lmle p).Pairwise Before := by
    have h1 : (Q.sort lmle p).Pairwise (fun a b => lmle a b = true) := by
      apply Q.sorted
      · intro a b _ _
        simp only [lmle, Bool.or_eq_true]
        by_cases q : a.m = b.m
        · rw [if_pos q, if_pos q.symm]; simp only [decide_eq_true_eq]; omega
        · rw [if_neg q, if_neg (Ne.symm q)]; simp only [decide_eq_true_eq]; omega
      · intro a b c _ _ _ h1 h2
        simp only [lmle] at h1 h2 ⊢
        split at h1 <;> split at h2 <;> split <;> simp only [decide_eq_true_eq] at h1 h2 ⊢ <;> omega
    have h2 : (Q.sort lmle p).Pairwise (fun a b => ¬ (a.l = b.l ∧ a.m = b.m)) :=
      (hperm.pairwise_iff (by intro a b h q; exact h ⟨q.1.symm, q.2.symm⟩)).mpr hd
    refine (h1.and h2).imp ?_
    rintro a b ⟨h3, h4⟩
    unfold Before
    simp only [lmle] at h3
    split at h3 <;> simp only [decide_eq_true_eq] at h3 <;> omega
  unfold toLmpoly at ht
  cases hq : Q.sort lmle p with
  | nil => rw [hq] at ht; cases ht
  | cons x u =>
    rw [hq] at ht hperm hsort
    simp only at ht
    obtain ⟨b, h1, h2⟩ := bind_ok_iff.mp ht
    have hmem : ∀ y ∈ x :: u, y ∈ p := fun y hy => hperm.mem_iff.mp hy
    obtain ⟨z, hzp, hz0⟩ := hz
    have hz' : z ∈ x :: u := hperm.mem_iff.mpr hzp
    obtain ⟨rows, e1, e2, e3, e4⟩ := writeLines_inv u [x] x.m [] b (by simp) (by simp) (fun y hy => (hc y (hmem y hy)).2) hsort (Or.inr ⟨z, hz', hz0⟩) h1
    have hx0 : x.m ≤ 0 := by
      rcases List.mem_cons.mp hz' with rfl | hz'
      · omega
      · rcases (List.pairwise_cons.mp hsort).1 z hz' with h | h <;> omega
    have hlen := e3 z hz'
    set k := (-x.m).toNat with hk
    have hkm : -(k : Int) = x.m := by omega
    have hkl : k < rows.length := by omega
    obtain ⟨before, r0, after, hrows, hbl⟩ : ∃ before r0 after, rows = before ++ r0 :: after ∧ before.length = k := by
      refine ⟨rows.take k, rows[k], rows.drop (k + 1), ?_, ?_⟩
      · rw [← List.drop_eq_getElem_cons hkl, List.take_append_drop]
      · rw [List.length_take]; omega
    have htext : t = lmText before r0 after true := by
      rw [cat_inv h2, e1, ← placedRows_lm, ← hrows, hbl, hkm]; rfl
    have hmeant : meant before r0 after = x :: u := by
      unfold meant
      rw [← hrows, hbl, hkm, e2]
      show List.filter _ (x :: u) = x :: u
      rw [List.filter_eq_self]
      intro y hy
      simpa using (hc y (hmem y hy)).1
    have hcount : t.count ' ' < room before r0 after true := by
      rw [htext]
      unfold lmText room
      rw [List.count_append, count_lines, List.count_cons, List.count_append, count_row, List.count_cons, List.count_cons, List.count_append, count_lines]
      simp
      omega
    obtain ⟨p', f1, f2, _⟩ := C103_read Q before r0 after true (by rw [← hrows]; exact e4) (by
      rw [hmeant, hperm.length_eq]; omega)
    refine ⟨p', by rw [htext]; exact f1, ?_⟩
    rw [hmeant] at f2
    exact f2.trans hperm

/-- The polynomial of a link of two components (the Hopf link), sorted as for lmpoly: no monomial has `m^0`. -/
def hopf : List Mono := [⟨1, 1, -1⟩, ⟨1, 3, -1⟩, ⟨-1, 1, 1⟩]

/-- A polynomial that is sorted is not changed by the sort. -/
theorem sort_id (Q : QSort) (p : List Mono) (h : p.Pairwise Before) : Q.sort lmle p = p := by
  have tot : ∀ a b : Mono, (lmle a b || lmle b a) = true := by
    intro a b
    simp only [lmle, Bool.or_eq_true]
    by_cases q : a.m = b.m
    · rw [if_pos q, if_pos q.symm]; simp only [decide_eq_true_eq]; omega
    · rw [if_neg q, if_neg (Ne.symm q)]; simp only [decide_eq_true_eq]; omega
  have tr : ∀ a b c : Mono, lmle a b = true → lmle b c = true → lmle a c = true := by
    intro a b c h1 h2
    simp only [lmle] at h1 h2 ⊢
    split at h1 <;> split at h2 <;> split <;> simp only [decide_eq_true_eq] at h1 h2 ⊢ <;> omega
  have h1 := Q.sorted lmle p (fun a b _ _ => tot a b) (fun a b c _ _ _ => tr a b c)
  have hlt : ∀ a b, Before a b → ¬ lmle b a = true := by
    intro a b h q
    unfold Before at h
    simp only [lmle] at q
    split at q <;> simp only [decide_eq_true_eq] at q <;> omega
  have hB : ∀ a b, Before a b → lmle a b = true := by
    intro a b h
    have := tot a b
    rw [Bool.or_eq_true] at this
    exact this.resolve_right (hlt a b h)
  have h2 : (Q.sort lmle p).Pairwise Before := by
    have hirr : (Q.sort lmle p).Nodup := (Q.perm lmle p).nodup_iff.mpr (h.imp fun {a b} hab => by rintro rfl; unfold Before at hab; omega)
    have hor : ∀ a ∈ p, ∀ b ∈ p, a ≠ b → Before a b ∨ Before b a := by
      intro a ha b hb hab
      exact List.Pairwise.forall_of_forall_of_flip (R := fun a b => a ≠ b → Before a b ∨ Before b a) (by simp) (h.imp fun h _ => Or.inl h) (h.imp fun h _ => Or.inr h) ha hb hab
    refine List.Pairwise.imp_of_mem ?_ (h1.and hirr)
    rintro a b ha hb ⟨h3, h4⟩
    exact (hor a ((Q.perm lmle p).mem_iff.mp ha) b ((Q.perm lmle p).mem_iff.mp hb) h4).resolve_right fun q => hlt b a q h3
  exact (Q.perm lmle p).eq_of_pairwise (fun a b _ _ h3 h4 => absurd (hB b a h4) (hlt a b h3)) h2 h

/-- **C104 (refuted without `m^0`)**: for the Hopf link no row is put in double brackets, and the text is read back with other powers of `m`. -/
theorem C104_hopf (Q : QSort) : ∃ t p', toLmpoly Q hopf = .ok t ∧ t = str "[0] 1 0 1N[0]N[0] -1N " ∧ ofLmpoly Q t = .ok p' ∧ ¬ p'.Perm hopf := by
  refine ⟨_, Q.sort mle [⟨1, 1, -3⟩, ⟨1, 3, -3⟩, ⟨-1, 1, -1⟩], ?_, rfl, ?_, ?_⟩
  · unfold toLmpoly
    rw [sort_id Q hopf (by unfold hopf Before; decide)]
    decide +kernel
  · unfold ofLmpoly
    have : readL ((str "[0] 1 0 1N[0]N[0] -1N ").count ' ') false (-3) (initL false 0 (str "[0] 1 0 1N[0]N[0] -1N ")) [] (str "[0] 1 0 1N[0]N[0] -1N ") =
      .ok [⟨1, 1, -3⟩, ⟨1, 3, -3⟩, ⟨-1, 1, -1⟩] := by decide +kernel
    have hs : scan1 0 0 0 false 0 (str "[0] 1 0 1N[0]N[0] -1N ") = (false, 14, 0, -3) := by decide +kernel
    simp only [hs]
    rw [if_neg (by decide), this, ok_bind]
  · intro h
    have := ((Q.perm mle _).symm.trans h).mem_iff (a := ⟨1, 1, -3⟩)
    revert this
    decide

/-- The polynomial of the trefoil meets the hypotheses of the round trip. -/
example (Q : QSort) : ∃ t p', toLmpoly Q [⟨-1, -4, 0⟩, ⟨-2, -2, 0⟩, ⟨1, -2, 2⟩] = .ok t ∧ t = str "[-1 0 -2 0 [0]]N[0]N1 0 [0]N " ∧
    ofLmpoly Q t = .ok p' ∧ p'.Perm [⟨-1, -4, 0⟩, ⟨-2, -2, 0⟩, ⟨1, -2, 2⟩] := by
  have h1 : toLmpoly Q [⟨-1, -4, 0⟩, ⟨-2, -2, 0⟩, ⟨1, -2, 2⟩] = .ok (str "[-1 0 -2 0 [0]]N[0]N1 0 [0]N ") := by
    unfold toLmpoly
    rw [sort_id Q _ (by unfold Before; decide)]
    decide +kernel
  obtain ⟨p', h2, h3⟩ := C104_roundtrip Q _ _ (by simp [intMax]) (by simp) ⟨⟨-1, -4, 0⟩, by simp, rfl⟩ h1 (by decide)
  exact ⟨_, p', h1, rfl, h2, h3⟩

end Plc.Poly
