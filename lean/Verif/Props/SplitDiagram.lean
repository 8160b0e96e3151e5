import Verif.Proofs.PartCheck

/-! # C73: `pd_split_diagram` makes a diagram of every piece -/

namespace Plc

open Plc.Split Plc.Core Plc.Cmp Plc.Buffers Plc.BigonDel Plc.Ok List

/-- `pd_split_diagram` on a diagram which may be in several pieces does not stop at an assertion or leave its buffers. Piece number
`k` of the answer has exactly the edges `e` with `code[e]? = some k`; two edges are in the same piece exactly when one can get from
one to the other through crossings. Each piece (`Part`) is a circle with the tag it had, or a diagram which passes `pd_ok`, with
exactly the crossings and the edges of the piece, meeting in the same way with the same signs, and with the same components
with the tags they had. -/
theorem C73_split_diagram (qs : QSort) {pd : Io.Pd} (hS : Scattered pd) {caps : Io.Caps} (hcap : pd.edge.length ≤ caps.edges)
    (hsmall : 2 * pd.edge.length < 2 ^ 31) :
    ∃ (outs : List Out) (code : List Nat), splitDiagram qs caps pd = .ok outs ∧ code.length = pd.edge.length ∧
      (∀ (a b x y : Nat), code[a]? = some x → code[b]? = some y → (x = y ↔ Linked pd.cross a b)) ∧
      (∀ k, k < outs.length ↔ k ∈ code) ∧
      ∀ (k : Nat) (o : Out), outs[k]? = some o → Part pd (fun e => code[e]? = some k) o := by
  obtain ⟨outs, code, h1, h2, h3, h4⟩ := splitDiagram_ok qs hS hcap hsmall
  exact ⟨outs, code, h1, h2.len, h2.iff, h3, h4⟩

/-- The pieces have together as many crossings, edges and components as the diagram. -/
theorem C73_split_counts (qs : QSort) {pd : Io.Pd} {caps : Io.Caps} {outs : List Out} (h : splitDiagram qs caps pd = .ok outs) :
    (outs.map ncross).sum = pd.cross.length ∧ (outs.map nedges).sum = pd.edge.length ∧ (outs.map ncomps).sum = pd.comp.length := by
  unfold splitDiagram at h
  rw [bind_ok_iff] at h
  obtain ⟨⟨code, n⟩, -, h⟩ := h
  simp only at h
  rw [bind_ok_iff] at h
  obtain ⟨outs', -, h⟩ := h
  rw [bind_ok_iff] at h
  obtain ⟨u1, h1, h⟩ := h
  rw [bind_ok_iff] at h
  obtain ⟨u2, h2, h⟩ := h
  rw [bind_ok_iff] at h
  obtain ⟨u3, h3, h⟩ := h
  cases h
  unfold assertC at h1 h2 h3
  refine ⟨?_, ?_, ?_⟩
  · split at h1
    · simp_all
    · cases h1
  · split at h2
    · simp_all
    · cases h2
  · split at h3
    · simp_all
    · cases h3

namespace Split

/-! A trefoil, two rings through which no string passes, but crossing each other, and a circle by itself; everything numbered in a
mixed order. -/

def mixedCross : List Cross :=
  [⟨0, 2, 6, 4, .pos⟩, ⟨1, 3, 9, 5, .pos⟩, ⟨4, 6, 10, 8, .pos⟩, ⟨5, 9, 3, 1, .neg⟩, ⟨8, 10, 2, 0, .pos⟩]
def mixedEdge : List Edge :=
  [⟨0, 0, 4, 3⟩, ⟨1, 0, 3, 3⟩, ⟨0, 1, 4, 2⟩, ⟨1, 1, 3, 2⟩, ⟨2, 0, 0, 3⟩, ⟨3, 0, 1, 3⟩, ⟨2, 1, 0, 2⟩, freeEdge, ⟨4, 0, 2, 3⟩,
   ⟨3, 1, 1, 2⟩, ⟨4, 1, 2, 2⟩]
def mixedPd : Io.Pd :=
  { hash := [], uid := 0, cross := mixedCross, edge := mixedEdge,
    comp := [⟨[3, 5], 68⟩, ⟨[7], 66⟩, ⟨[0, 6, 8, 2, 4, 10], 67⟩, ⟨[1, 9], 65⟩], face := [] }
def mixedCode : List Nat := [0, 1, 0, 1, 0, 1, 0, 2, 0, 1, 0]

theorem mixed_loose : Loose mixedCross mixedEdge where
  ends e r he hf := by
    have : e < 11 := (List.getElem?_eq_some_iff.mp he).1
    interval_cases e <;> · simp [mixedEdge] at he; subst he; first | exact absurd rfl hf | decide
  slots c k e hs := by
    have h1 := slot_lt hs
    have hc : c < 5 := h1.1
    have hk : k < 4 := h1.2
    interval_cases c <;> interval_cases k <;>
      · simp [slot, mixedCross, Cross.at] at hs
        subst hs
        refine ⟨_, rfl, ?_⟩
        decide

theorem mixed_labels : labels mixedCross mixedEdge = .ok (mixedCode, 3) := by decide +kernel

theorem mixed_linked {a b x y : Nat} (hx : mixedCode[a]? = some x) (hy : mixedCode[b]? = some y) :
    x = y ↔ Linked mixedCross a b := by
  obtain ⟨code, n, h1, h2, h3, h4⟩ := C35_split_labels mixed_loose (by decide)
  rw [mixed_labels] at h1
  cases h1
  exact h3 a b x y hx hy

def mixedFace (s : Nat × Or) : Nat :=
  match s with
  | (0, .pos) | (4, .pos) | (8, .pos) => 0
  | (0, .neg) | (2, .pos) => 1
  | (1, .pos) | (5, .pos) => 2
  | (1, .neg) | (3, .pos) => 3
  | (2, .neg) | (10, .neg) | (6, .neg) => 4
  | (3, .neg) | (9, .neg) => 5
  | (4, .neg) | (6, .pos) => 6
  | (5, .neg) | (9, .pos) => 7
  | _ => 8

def mixedNext (s : Nat × Or) : Nat × Or :=
  ((allSides 11).find? (fun t => turnsB mixedEdge s t)).getD s

theorem mixed_part (i : Nat) (cs : List Nat) (reps : List (Nat × Or)) {e : Nat} (he : mixedCode[e]? = some i)
    (h1 : cs.Nodup) (h2 : ∀ c < mixedCross.length, c ∈ cs ↔ ∃ k < 4, (slot mixedCross c k).bind (mixedCode[·]?) = some i)
    (h2' : ∀ c ∈ cs, c < mixedCross.length)
    (h3 : reps.length = cs.length + 2) (h4 : ∀ s ∈ reps, s ∈ allSides mixedEdge.length ∧ mixedCode[s.1]? = some i)
    (h5 : reps.Pairwise (fun x y => mixedFace x ≠ mixedFace y))
    (h7 : ∀ s ∈ allSides mixedEdge.length, mixedCode[s.1]? = some i → turnsB mixedEdge s (mixedNext s) = true ∧
      mixedCode[(mixedNext s).1]? = some i)
    (h8 : ∀ s ∈ allSides mixedEdge.length, mixedCode[s.1]? = some i → ∃ r ∈ reps, ∃ n < 3, mixedNext^[n] r = s) :
    PlanePart mixedCross mixedEdge (Linked mixedCross e) := by
  refine planePart_of (code := mixedCode) (i := i) ?_ cs reps mixedFace 3 mixedNext ?_ h1 h2 h2' h3 h4 h5 (by decide +kernel) h7 h8
  · intro a ha
    have hal : a < mixedCode.length := ha
    rw [← mixed_linked he (List.getElem?_eq_getElem hal), List.getElem?_eq_getElem hal, Option.some.injEq]
    exact eq_comm
  · intro c k e h
    obtain ⟨r, r1, -⟩ := mixed_loose.slots c k e h
    exact (List.getElem?_eq_some_iff.mp r1).1

theorem mixed_scattered : Scattered mixedPd where
  loose := mixed_loose
  through_head e r he hf := by
    have : e < 11 := (List.getElem?_eq_some_iff.mp he).1
    have key : ∀ e < 11, ∃ e' < 11, mixedEdge[e]! = freeEdge ∨ (mixedEdge[e']!.tail = mixedEdge[e]!.head ∧
      mixedEdge[e']!.tailpos = (mixedEdge[e]!.headpos + 2) % 4) := by decide
    obtain ⟨e', e1, e2⟩ := key e this
    have hr : mixedEdge[e]! = r := by
      have : mixedEdge[e]? = some r := he
      simp [this]
    rw [hr] at e2
    rcases e2 with e2 | e2
    · exact absurd e2 hf
    · refine ⟨e', _, ?_, e2⟩
      change mixedEdge[e']? = _
      exact get_bang e1
  through_tail e r he hf := by
    have : e < 11 := (List.getElem?_eq_some_iff.mp he).1
    have key : ∀ e < 11, ∃ e' < 11, mixedEdge[e]! = freeEdge ∨ (mixedEdge[e']!.head = mixedEdge[e]!.tail ∧
      mixedEdge[e']!.headpos = (mixedEdge[e]!.tailpos + 2) % 4) := by decide
    obtain ⟨e', e1, e2⟩ := key e this
    have hr : mixedEdge[e]! = r := by
      have : mixedEdge[e]? = some r := he
      simp [this]
    rw [hr] at e2
    rcases e2 with e2 | e2
    · exact absurd e2 hf
    · refine ⟨e', _, ?_, e2⟩
      change mixedEdge[e']? = _
      exact get_bang e1
  all := by decide
  nonempty := by decide
  follow k hk j e hj hf := by
    have key : ∀ k ∈ mixedPd.comp, ∀ j < k.edge.length, ∃ e' < 11, ∃ q < 5, mixedEdge[k.edge[j]!]! = freeEdge ∨
        (k.edge[(j + 1) % k.edge.length]? = some e' ∧
        slot mixedCross mixedEdge[k.edge[j]!]!.head ((mixedEdge[k.edge[j]!]!.headpos + 2) % 4) = some e') := by decide
    have hjl := (List.getElem?_eq_some_iff.mp hj).1
    obtain ⟨e', e1, q, -, e2⟩ := key k hk j hjl
    have h1 : k.edge[j]! = e := by simp [hj]
    rw [h1] at e2
    have he : e < 11 := by
      have : ∀ k ∈ mixedPd.comp, ∀ e ∈ k.edge, e < 11 := by decide
      exact this k hk e (List.mem_of_getElem? hj)
    have hget : mixedEdge[e]? = some mixedEdge[e]! := get_bang he
    rcases e2 with e2 | ⟨e2, e3⟩
    · refine absurd ?_ hf
      change mixedEdge[e]? = _
      rw [hget, e2]
    · exact ⟨e', e2, _, hget, e3⟩
  free := by decide
  tags := by decide
  letters := by
    intro k hk k' _ _ h
    exact absurd h ((by decide : ∀ k ∈ mixedPd.comp, ¬ k.tag < 65) k hk)
  plane e r he hf := by
    have : e < 11 := (List.getElem?_eq_some_iff.mp he).1
    have h0 : ∀ e < 11, mixedCode[e]? = some 0 ∨ mixedCode[e]? = some 1 ∨ e = 7 := by decide
    rcases h0 e this with h | h | h
    · exact mixed_part 0 [0, 2, 4] [(0, .pos), (0, .neg), (2, .neg), (4, .neg), (8, .neg)] h (by decide) (by decide) (by decide) rfl
        (by decide) (by decide) (by decide +kernel) (by decide +kernel)
    · exact mixed_part 1 [1, 3] [(1, .pos), (1, .neg), (3, .neg), (5, .neg)] h (by decide) (by decide) (by decide) rfl
        (by decide) (by decide) (by decide +kernel) (by decide +kernel)
    · subst h
      have : mixedEdge[7]? = some r := he
      cases this
      exact absurd rfl hf

/-- The trefoil, the two rings and the circle, with their tags. -/
example : (splitDiagram insQSort (Io.capsNew 5) mixedPd).map (fun outs => outs.map (fun o => (ncross o, nedges o, ncomps o))) =
    .ok [(3, 6, 1), (2, 4, 2), (0, 1, 1)] := by decide +kernel

example : ∃ (outs : List Out) (code : List Nat), splitDiagram insQSort (Io.capsNew 5) mixedPd = .ok outs ∧ code.length = 11 ∧
    (∀ k, k < outs.length ↔ k ∈ code) ∧ ∀ (k : Nat) (o : Out), outs[k]? = some o → Part mixedPd (fun e => code[e]? = some k) o := by
  obtain ⟨outs, code, h1, h2, -, h3, h4⟩ := C73_split_diagram insQSort mixed_scattered (caps := Io.capsNew 5) (by decide) (by decide)
  exact ⟨outs, code, h1, h2, h3, h4⟩

end Split

end Plc
