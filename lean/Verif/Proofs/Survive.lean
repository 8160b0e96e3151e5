import Verif.Props.Buffers
import Mathlib.Data.List.Nodup

namespace Plc.Buffers

open List

/-- `σ` numbers the survivors, `ν` is its inverse. -/
structure Survive (n : Nat) (dels : List Nat) (m : Nat) (σ ν : Nat → Nat) : Prop where
  up : ∀ d, d < m → σ d < n ∧ σ d ∉ dels
  left : ∀ d, d < m → ν (σ d) = d
  down : ∀ i, i < n → i ∉ dels → ν i < m ∧ σ (ν i) = i

theorem Survive.inj {n m : Nat} {dels : List Nat} {σ ν : Nat → Nat} (h : Survive n dels m σ ν) {d d' : Nat}
    (hd : d < m) (hd' : d' < m) (he : σ d = σ d') : d = d' := by
  rw [← h.left d hd, he, h.left d' hd']

/-- The survivors. -/
def surv (n : Nat) (dels : List Nat) : List Nat := (range n).filter (fun i => decide (i ∉ dels))

theorem surv_get {n : Nat} {dels : List Nat} (hd : ∀ d ∈ dels, d < n) {i : Nat} (hi : i < n) (hm : i ∉ dels) :
    (surv n dels)[survivorsBefore dels i]? = some i := by
  unfold surv
  have h := keepFrom_get (fun i => decide (i ∈ dels)) (range n) 0 i (by simpa using hi) (by simpa using hm)
  rw [keepFrom_zipIdx] at h
  have e : ((range n).zipIdx.filter (fun q => !(decide (q.2 ∈ dels)))).map (·.1) =
      (range n).filter (fun i => decide (i ∉ dels)) := by
    have : (range n).zipIdx = (range n).map (fun i => (i, i)) := by
      apply List.ext_getElem?
      intro i
      simp only [List.getElem?_zipIdx, List.getElem?_map]
      by_cases hi : i < n
      · simp [List.getElem?_range hi]
      · simp [hi]
    rw [this, List.filter_map, List.map_map]
    simp [Function.comp_def]
  rw [e] at h
  unfold survivorsBefore
  rw [List.getElem?_range hi] at h
  simpa using h

theorem surv_survive {n : Nat} {dels : List Nat} (hd : ∀ d ∈ dels, d < n) :
    Survive n dels (surv n dels).length (fun d => (surv n dels).getD d 0) (survivorsBefore dels) := by
  have hnd : (surv n dels).Nodup := List.nodup_range.filter _
  have get : ∀ d, d < (surv n dels).length → (surv n dels)[d]? = some ((surv n dels).getD d 0) := by
    intro d hd'
    rw [List.getD_eq_getElem?_getD, List.getElem?_eq_getElem hd']
    rfl
  have up : ∀ d, d < (surv n dels).length → (surv n dels).getD d 0 < n ∧ (surv n dels).getD d 0 ∉ dels := by
    intro d hd'
    have := List.mem_of_getElem? (get d hd')
    unfold surv at this
    rw [List.mem_filter, List.mem_range] at this
    simpa [surv] using this
  refine ⟨up, ?_, ?_⟩
  · intro d hd'
    have h1 := surv_get hd (up d hd').1 (up d hd').2
    have h2 := get d hd'
    obtain ⟨l1, g1⟩ := List.getElem?_eq_some_iff.mp h1
    obtain ⟨l2, g2⟩ := List.getElem?_eq_some_iff.mp h2
    exact (List.Nodup.getElem_inj_iff hnd).mp (by rw [g1, g2])
  · intro i hi hm
    have h1 := surv_get hd hi hm
    have hl := (List.getElem?_eq_some_iff.mp h1).1
    refine ⟨hl, ?_⟩
    have := get _ hl
    rw [h1] at this
    exact (Option.some.inj this).symm

theorem surv_length {n : Nat} {dels : List Nat} (hd : ∀ d ∈ dels, d < n) (hn : dels.Nodup) :
    (surv n dels).length + dels.length = n := by
  have h1 : ((range n).filter (fun i => decide (i ∈ dels))).Perm dels := by
    rw [List.perm_ext_iff_of_nodup (List.nodup_range.filter _) hn]
    intro a
    rw [List.mem_filter, List.mem_range]
    simp only [decide_eq_true_eq]
    exact ⟨fun h => h.2, fun h => ⟨hd a h, h⟩⟩
  have h2 := List.length_eq_countP_add_countP (fun i => decide (i ∈ dels)) (l := range n)
  rw [List.countP_eq_length_filter, h1.length_eq, List.countP_eq_length_filter, List.length_range] at h2
  unfold surv
  have : (fun i => decide (i ∉ dels)) = (fun a => decide ¬decide (a ∈ dels) = true) := by
    funext a; simp
  rw [this]
  omega

/-- What `pd_compacting_copy` does, with survivors numbered. -/
theorem compact_survive {α : Type} (qs : QSort) (zero : α) (source : List α) (dels : List Nat)
    (hd : ∀ d ∈ dels, d < source.length) (hn : dels.Nodup) :
    ∃ target tidx σ ν, compactingCopy qs zero source dels = .ok (target, tidx) ∧
      target.length + dels.length = source.length ∧ Survive source.length dels target.length σ ν ∧
      (∀ d, d < target.length → target[d]? = source[σ d]?) ∧
      tidx.length = source.length ∧
      (∀ i, i < source.length → tidx[i]? = some (if i ∈ dels then UNSET_IDX else ν i)) := by
  obtain ⟨target, tidx, h1, h2, h3, h4, h5⟩ := C15_compacting_copy qs zero source dels hd
  have hlen : target.length = (surv source.length dels).length := by
    rw [h2, List.length_map]
    have : (surv source.length dels) = (source.zipIdx.map (·.2)).filter (fun i => decide (i ∉ dels)) := by
      unfold surv
      rw [List.zipIdx_map_snd, List.range_eq_range']
    rw [this, List.filter_map, List.length_map]
    rfl
  have hS := surv_survive hd
  refine ⟨target, tidx, _, _, h1, by rw [hlen]; exact surv_length hd hn, by rw [hlen]; exact hS, ?_, h3, ?_⟩
  · intro d hd'
    rw [hlen] at hd'
    obtain ⟨u1, u2⟩ := hS.up d hd'
    have := (h5 _ u1 u2).2
    rw [hS.left d hd'] at this
    exact this
  · intro i hi
    split
    · exact h4 i hi ‹_›
    · exact (h5 i hi ‹_›).1

end Plc.Buffers
