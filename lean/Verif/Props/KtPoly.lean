import Verif.Model.KtPoly
import Verif.Props.PolyRead

/-!
# C105: polynomials written by KnotTheory
-/

namespace Plc.Poly

open Plc.Io Plc.Vect

/-- A monomial as in the comment (634): `-1 a^2 z^0`. -/
def ktMono (x : Mono) : List Char := decI x.coeff ++ (' ' :: 'a' :: '^' :: (decI x.l ++ (' ' :: 'z' :: '^' :: decI x.m)))

/-- Monomials with ` + ` between them. -/
def ktText : List Mono → List Char
  | [] => []
  | [x] => ktMono x
  | x :: y :: t => ktMono x ++ (' ' :: '+' :: ' ' :: ktText (y :: t))

/-- Values of `int` other than `INT_MIN`. -/
def Fits (x : Mono) : Prop := x.coeff.natAbs ≤ intMax ∧ x.l.natAbs ≤ intMax ∧ x.m.natAbs ≤ intMax

theorem decI_noPlus (v : Int) : ∀ c ∈ decI v, c ≠ '+' := by
  have dig : ∀ c, isDig c = true → c ≠ '+' := by intro c hc; rintro rfl; revert hc; decide
  intro c hc
  unfold decI at hc
  split at hc
  · rcases List.mem_cons.mp hc with rfl | hc
    · decide
    · exact dig c (dec_isDig _ c hc)
  · exact dig c (dec_isDig _ c hc)

theorem ktMono_noPlus (x : Mono) : ∀ c ∈ ktMono x, c ≠ '+' := by
  intro c hc
  unfold ktMono at hc
  simp only [List.mem_append, List.mem_cons] at hc
  rcases hc with h | rfl | rfl | rfl | h | rfl | rfl | rfl | h
  · exact decI_noPlus _ c h
  · decide
  · decide
  · decide
  · exact decI_noPlus _ c h
  · decide
  · decide
  · decide
  · exact decI_noPlus _ c h

theorem ktMono_ne (x : Mono) : ktMono x ≠ [] := by
  obtain ⟨c, w, h⟩ := decI_cons x.coeff
  unfold ktMono
  rw [h]; simp

theorem splitPlus_word : ∀ w : List Char, (∀ c ∈ w, c ≠ '+') → splitPlus w = [w]
  | [], _ => rfl
  | c :: w, h => by rw [splitPlus, if_neg (h c (by simp)), splitPlus_word w fun d hd => h d (by simp [hd])]

theorem splitPlus_plus (r : List Char) : ∀ w : List Char, (∀ c ∈ w, c ≠ '+') → splitPlus (w ++ '+' :: r) = w :: splitPlus r
  | [], _ => by rw [List.nil_append, splitPlus, if_pos rfl]
  | c :: w, h => by rw [List.cons_append, splitPlus, if_neg (h c (by simp)), splitPlus_plus r w fun d hd => h d (by simp [hd])]

theorem scanD_lead {lead : List Char} (hl : lead = [] ∨ lead = [' ']) (s : List Char) : scanD (lead ++ s) = scanD s := by
  rcases hl with rfl | rfl
  · rfl
  · have : skip ([' '] ++ s) = skip s := by unfold skip; rw [List.cons_append, List.dropWhile_cons_of_pos (by decide), List.nil_append]
    unfold scanD
    rw [this]

theorem letter_ok (c : Char) (hc : isSpace c = false) (r : List Char) : letter c (' ' :: c :: '^' :: r) = some r := by
  unfold letter skip
  rw [List.dropWhile_cons_of_pos (by decide), List.dropWhile_cons_of_neg (by simp [hc])]
  simp

theorem scanKt_ok {x : Mono} (hx : Fits x) {lead trail : List Char} (hl : lead = [] ∨ lead = [' ']) (ht : trail = [] ∨ trail = [' ']) :
    scanKt (lead ++ (ktMono x ++ trail)) = .ok (some x) := by
  have n1 : ∀ r, NoDig (' ' :: r) := fun r => special_noDig (by decide) r
  have n2 : NoDig trail := by
    rcases ht with rfl | rfl
    · intro c t h; cases h
    · exact n1 []
  have e : ktMono x ++ trail = decI x.coeff ++ (' ' :: 'a' :: '^' :: (decI x.l ++ (' ' :: 'z' :: '^' :: (decI x.m ++ trail)))) := by
    unfold ktMono; simp
  unfold scanKt
  rw [scanD_lead hl, e, scanD_decI hx.1 (n1 _), ok_bind]
  simp only
  rw [letter_ok 'a' (by decide)]
  simp only
  rw [scanD_decI hx.2.1 (n1 _), ok_bind]
  simp only
  rw [letter_ok 'z' (by decide)]
  simp only
  rw [scanD_decI hx.2.2 n2, ok_bind]

theorem kt_run : ∀ (p : List Mono) (lead : List Char), p ≠ [] → (∀ x ∈ p, Fits x) → (lead = [] ∨ lead = [' ']) →
    (lead ++ ktText p).count '+' + 1 = p.length ∧ ktLoop p.length (plusTokens (lead ++ ktText p)) = .ok p
  | [], _, h, _, _ => absurd rfl h
  | [x], lead, _, hf, hl => by
    have hno : ∀ c ∈ lead ++ ktMono x, c ≠ '+' := by
      intro c hc
      rcases List.mem_append.mp hc with h | h
      · rcases hl with rfl | rfl
        · cases h
        · rw [List.mem_singleton.mp h]; decide
      · exact ktMono_noPlus x c h
    rw [ktText]
    refine ⟨?_, ?_⟩
    · rw [List.count_eq_zero.mpr fun h => hno '+' h rfl]; rfl
    · have hs := scanKt_ok (hf x (by simp)) hl (Or.inl rfl)
      rw [List.append_nil] at hs
      unfold plusTokens
      rw [splitPlus_word _ hno, List.filter_cons_of_pos (by simp [ktMono_ne]), List.filter_nil]
      show ktLoop 1 _ = _
      rw [ktLoop, hs, ok_bind]
      rfl
  | x :: y :: t, lead, _, hf, hl => by
    have hno : ∀ c ∈ lead ++ (ktMono x ++ [' ']), c ≠ '+' := by
      intro c hc
      rcases List.mem_append.mp hc with h | h
      · rcases hl with rfl | rfl
        · cases h
        · rw [List.mem_singleton.mp h]; decide
      · rcases List.mem_append.mp h with h | h
        · exact ktMono_noPlus x c h
        · rw [List.mem_singleton.mp h]; decide
    obtain ⟨i1, i2⟩ := kt_run (y :: t) [' '] (by simp) (fun z hz => hf z (by simp [List.mem_cons.mp hz])) (Or.inr rfl)
    have e : lead ++ ktText (x :: y :: t) = (lead ++ (ktMono x ++ [' '])) ++ '+' :: ([' '] ++ ktText (y :: t)) := by
      rw [ktText]; simp
    rw [e]
    refine ⟨?_, ?_⟩
    · rw [List.count_append, List.count_eq_zero.mpr fun h => hno '+' h rfl, List.count_cons, List.length_cons, ← i1]
      simp
    · have hs := scanKt_ok (hf x (by simp)) hl (Or.inr rfl)
      unfold plusTokens at i2 ⊢
      rw [splitPlus_plus _ _ hno, List.filter_cons_of_pos (by simp)]
      rw [List.length_cons, ktLoop, hs, ok_bind]
      simp only
      rw [i2, ok_bind]

/-- **C105 (partial)**: from the text of any monomials `KnotTheory_to_polynomial` makes these monomials, sorted, if the allocator gives it more than the bytes
it asks for. -/
theorem C105_read_partial (Q : QSort) (bytes : Nat) (hb : 16 ≤ bytes) (p : List Mono) (hne : p ≠ []) (hp : ∀ x ∈ p, Fits x) :
    ∃ p', ofKnotTheory bytes Q (ktText p) = .ok p' ∧ p'.Perm p ∧
      p'.Pairwise (fun a b => a.l < b.l ∨ (a.l = b.l ∧ (a.m < b.m ∨ (a.m = b.m ∧ a.coeff ≤ b.coeff)))) := by
  obtain ⟨h1, h2⟩ := kt_run p [] hne hp (Or.inl rfl)
  rw [List.nil_append] at h1 h2
  refine ⟨Q.sort mle p, ?_, Q.perm _ _, (sort_sorted Q _).imp fun h => (mle_iff _ _).mp h⟩
  unfold ofKnotTheory
  rw [if_neg (by unfold sizeHomfly; omega), Nat.add_comm, h1, h2, ok_bind]

/-- **C105 (refuted)**: the bytes asked for are those of a pointer, so for every text the structure is written beyond them. -/
theorem C105_small (Q : QSort) (s : List Char) : ofKnotTheory sizePtr Q s = .error .ub := by
  unfold ofKnotTheory
  rw [if_pos (by decide)]

/-- The beginning of the example in the comment (634). -/
example : ktText [⟨1, 0, 0⟩, ⟨-1, 2, 0⟩, ⟨2, 4, 0⟩] = str "1 a^0 z^0 + -1 a^2 z^0 + 2 a^4 z^0" ∧ ∀ x ∈ [(⟨1, 0, 0⟩ : Mono), ⟨-1, 2, 0⟩, ⟨2, 4, 0⟩], Fits x := by
  refine ⟨by decide, ?_⟩
  simp [Fits, intMax]

end Plc.Poly
