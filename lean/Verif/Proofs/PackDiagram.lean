import Verif.Proofs.Pack
import Verif.Proofs.Diagram

namespace Plc.Pack

theorem ceilLog2_spec (m : Nat) : m ≤ 2 ^ ceilLog2 m := by
  fun_induction ceilLog2 m with
  | case1 m h => simpa using h
  | case2 m h ih => rw [Nat.pow_succ]; omega

theorem ceilLog2_min (m w : Nat) (h : m ≤ 2 ^ w) : ceilLog2 m ≤ w := by
  fun_induction ceilLog2 m generalizing w with
  | case1 m h => omega
  | case2 m h' ih =>
    cases w with
    | zero => simp at h; omega
    | succ w =>
      rw [Nat.pow_succ] at h
      have := ih w (by omega)
      omega

theorem idxBits_length (w i : Nat) : (idxBits w i).length = w := by
  induction w generalizing i with
  | zero => rfl
  | succ w ih => simp [idxBits, ih]

theorem idxBits_bit (w i : Nat) : ∀ b ∈ idxBits w i, b = 0 ∨ b = 1 := by
  induction w generalizing i with
  | zero => simp [idxBits]
  | succ w ih =>
    intro b hb
    simp only [idxBits, List.mem_cons] at hb
    rcases hb with hb | hb
    · omega
    · exact ih _ b hb

theorem idxUnbits_spec (pre rest : List Nat) : ∀ (w i acc pv : Nat), i < 2 ^ w →
    idxUnbits (pre ++ idxBits w i ++ rest) w pre.length acc pv = .ok (acc + pv * i) := by
  intro w
  induction w generalizing pre with
  | zero => intro i acc pv h; simp at h; simp [idxUnbits, h]
  | succ w ih =>
    intro i acc pv h
    rw [Nat.pow_succ] at h
    unfold idxUnbits
    have : (pre ++ idxBits (w + 1) i ++ rest)[pre.length]? = some (i % 2) := by
      simp [idxBits]
    rw [rd_ok this]
    simp only [ok_bind]
    have e : pre ++ idxBits (w + 1) i ++ rest = (pre ++ [i % 2]) ++ idxBits w (i / 2) ++ rest := by
      simp [idxBits]
    rw [e]
    have := ih (pre ++ [i % 2]) (i / 2) (acc + i % 2 * pv) (pv * 2) (by omega)
    simp only [List.length_append, List.length_cons, List.length_nil, Nat.zero_add] at this
    rw [this]
    congr 1
    have hi : i = i % 2 + 2 * (i / 2) := by omega
    calc acc + i % 2 * pv + pv * 2 * (i / 2) = acc + pv * (i % 2 + 2 * (i / 2)) := by
          rw [Nat.mul_add, Nat.mul_comm (i % 2) pv, ← Nat.mul_assoc, Nat.add_assoc]
      _ = acc + pv * i := by rw [← hi]

theorem indexbits_pos {n : Nat} (h : 0 < n) : indexbits n = .ok (ceilLog2 (2 * n)) := by
  simp [indexbits]; omega

theorem idxBitencode_ok {i n : Nat} (h : i < 2 * n) :
    idxBitencode i n = .ok (idxBits (ceilLog2 (2 * n)) i) := by
  unfold idxBitencode
  rw [assertC_ok (by simpa using h), indexbits_pos (by omega)]
  rfl

theorem idxBitdecode_append {i n : Nat} (h : i < 2 * n) (rest : List Nat) :
    idxBitdecode (idxBits (ceilLog2 (2 * n)) i ++ rest) n = .ok i := by
  unfold idxBitdecode
  rw [indexbits_pos (by omega)]
  have := idxUnbits_spec [] rest (ceilLog2 (2 * n)) i 0 1
    (Nat.lt_of_lt_of_le h (ceilLog2_spec _))
  simpa using this

/-! ### Bits of one crossing -/

/-- The bits of slot `k` of crossing `cr`. -/
def slotBits (n : Nat) (edge : List Edge) (cr : Nat) (c : Cross) (k : Nat) : List Nat :=
  (match edge[c.at k]? with
    | some er => if er.head = cr ∧ er.headpos = k then 1 else 0
    | none => 0) :: idxBits (ceilLog2 (2 * n)) (c.at k)

def signBits (c : Cross) : SignType → List Nat
  | .signed => [if c.sign = .pos then 1 else 0]
  | .unsigned => []

def crossBits (n : Nat) (edge : List Edge) (cr : Nat) (c : Cross) (t : SignType) : List Nat :=
  signBits c t ++ slotBits n edge cr c 0 ++ slotBits n edge cr c 1 ++ slotBits n edge cr c 2
    ++ slotBits n edge cr c 3

theorem slotBits_length (n : Nat) (edge : List Edge) (cr : Nat) (c : Cross) (k : Nat) :
    (slotBits n edge cr c k).length = ceilLog2 (2 * n) + 1 := by
  simp [slotBits, idxBits_length]

theorem crossBits_length (n : Nat) (edge : List Edge) (cr : Nat) (c : Cross) (t : SignType) :
    (crossBits n edge cr c t).length = crossbits (ceilLog2 (2 * n)) t := by
  cases t <;> simp [crossBits, slotBits_length, crossbits, signBits] <;> omega

theorem slotBits_bit (n : Nat) (edge : List Edge) (cr : Nat) (c : Cross) (k : Nat) :
    ∀ b ∈ slotBits n edge cr c k, b = 0 ∨ b = 1 := by
  intro b hb
  simp only [slotBits, List.mem_cons] at hb
  rcases hb with hb | hb
  · subst hb; split
    · split <;> simp
    · simp
  · exact idxBits_bit _ _ b hb

theorem crossBits_bit (n : Nat) (edge : List Edge) (cr : Nat) (c : Cross) (t : SignType) :
    ∀ b ∈ crossBits n edge cr c t, b = 0 ∨ b = 1 := by
  intro b hb
  simp only [crossBits, List.mem_append] at hb
  rcases hb with (((hb | hb) | hb) | hb) | hb
  · cases t <;> simp [signBits] at hb
    subst hb; split <;> simp
  all_goals exact slotBits_bit _ _ _ _ _ b hb

section Encode

variable {cross : List Cross} {edge : List Edge}

theorem encodeSlot_ok (h : Consistent cross edge) {cr k : Nat} {c : Cross}
    (hc : cross[cr]? = some c) (hk : k < 4) :
    encodeSlot cross edge cr c k = .ok (slotBits cross.length edge cr c k) := by
  have hs : slot cross cr k = some (c.at k) := slot_eq_some.mpr ⟨hk, c, hc, rfl⟩
  obtain ⟨r, hr, _⟩ := h.slots hs
  have hlt : c.at k < 2 * cross.length := by
    rw [← h.count]; exact h.slot_edge_lt hs
  unfold encodeSlot
  rw [Cross.rdPos_lt hk]
  simp only [ok_bind]
  rw [rd_ok hr]
  simp only [ok_bind]
  rw [idxBitencode_ok hlt]
  simp [slotBits, hr]

theorem crossingBitencode_ok (h : Consistent cross edge) {cr : Nat} {c : Cross} {t : SignType}
    (hc : cross[cr]? = some c) (ht : t = .signed → c.sign ≠ .unset) :
    crossingBitencode cross edge cr t = .ok (crossBits cross.length edge cr c t) := by
  unfold crossingBitencode
  rw [rd_ok hc]
  simp only [ok_bind]
  cases t with
  | signed =>
    simp only
    rw [assertC_ok (by simpa using ht rfl)]
    simp only [ok_bind, encodeSlot_ok h hc (show 0 < 4 by omega),
      encodeSlot_ok h hc (show 1 < 4 by omega), encodeSlot_ok h hc (show 2 < 4 by omega),
      encodeSlot_ok h hc (show 3 < 4 by omega)]
    simp [crossBits, signBits]
  | unsigned =>
    simp only [ok_bind, encodeSlot_ok h hc (show 0 < 4 by omega),
      encodeSlot_ok h hc (show 1 < 4 by omega), encodeSlot_ok h hc (show 2 < 4 by omega),
      encodeSlot_ok h hc (show 3 < 4 by omega)]
    simp [crossBits, signBits]

/-- All the bits of crossings `k ..`. -/
def bitsFrom (n : Nat) (edge : List Edge) (t : SignType) : Nat → List Cross → List Nat
  | _, [] => []
  | k, c :: cs => crossBits n edge k c t ++ bitsFrom n edge t (k + 1) cs

theorem bitsFrom_length (n : Nat) (edge : List Edge) (t : SignType) (k : Nat) (cs : List Cross) :
    (bitsFrom n edge t k cs).length = cs.length * crossbits (ceilLog2 (2 * n)) t := by
  induction cs generalizing k with
  | nil => simp [bitsFrom]
  | cons c cs ih => simp [bitsFrom, ih, crossBits_length, Nat.add_mul, Nat.add_comm]

theorem bitsFrom_bit (n : Nat) (edge : List Edge) (t : SignType) (k : Nat) (cs : List Cross) :
    ∀ b ∈ bitsFrom n edge t k cs, b = 0 ∨ b = 1 := by
  induction cs generalizing k with
  | nil => simp [bitsFrom]
  | cons c cs ih =>
    intro b hb
    simp only [bitsFrom, List.mem_append] at hb
    rcases hb with hb | hb
    · exact crossBits_bit _ _ _ _ _ b hb
    · exact ih _ b hb

theorem packCrossings_ok (h : Consistent cross edge) {t : SignType}
    (ht : t = .signed → ∀ c ∈ cross, c.sign ≠ .unset) :
    ∀ r k, k + r = cross.length →
      packCrossings cross edge t r k = .ok (bitsFrom cross.length edge t k (cross.drop k)) := by
  intro r
  induction r with
  | zero =>
    intro k hk
    have : cross.drop k = [] := by simp; omega
    simp [packCrossings, this, bitsFrom]
  | succ r ih =>
    intro k hk
    have hlt : k < cross.length := by omega
    unfold packCrossings
    rw [crossingBitencode_ok h (List.getElem?_eq_getElem hlt)
      (fun hh => ht hh _ (List.getElem_mem hlt))]
    simp only [ok_bind]
    rw [ih (k + 1) (by omega)]
    simp only [ok_bind]
    rw [List.drop_eq_getElem_cons hlt]
    rfl

end Encode

/-! ### Decoding -/

/-- Has the place `(c, k)` been visited once crossings before `cr` and positions before
`p` of `cr` are done? -/
def seen (cr p c k : Nat) : Bool := decide (c < cr) || (decide (c = cr) && decide (k < p))

/-- The part of an edge record known at that time. -/
def mask (cr p : Nat) (r : Edge) : Edge where
  head := if seen cr p r.head r.headpos then r.head else 0
  headpos := if seen cr p r.head r.headpos then r.headpos else 0
  tail := if seen cr p r.tail r.tailpos then r.tail else 0
  tailpos := if seen cr p r.tail r.tailpos then r.tailpos else 0

theorem seen_succ (cr p c k : Nat) :
    seen cr (p + 1) c k = (seen cr p c k || (decide (c = cr) && decide (k = p))) := by
  rw [Bool.eq_iff_iff]
  simp [seen]; omega

theorem mask_step_head {cr p : Nat} {r : Edge} (h1 : r.head = cr) (h2 : r.headpos = p)
    (hne : (r.head, r.headpos) ≠ (r.tail, r.tailpos)) :
    mask cr (p + 1) r = { mask cr p r with head := cr, headpos := p } := by
  have hd : ¬ (r.tail = cr ∧ r.tailpos = p) := by
    rintro ⟨a, b⟩; exact hne (by simp [h1, h2, a, b])
  have : (decide (r.tail = cr) && decide (r.tailpos = p)) = false := by simpa using hd
  simp [mask, seen_succ, h1, h2, this]

theorem mask_step_tail {cr p : Nat} {r : Edge} (h1 : r.tail = cr) (h2 : r.tailpos = p)
    (hne : (r.head, r.headpos) ≠ (r.tail, r.tailpos)) :
    mask cr (p + 1) r = { mask cr p r with tail := cr, tailpos := p } := by
  have hd : ¬ (r.head = cr ∧ r.headpos = p) := by
    rintro ⟨a, b⟩; exact hne (by simp [h1, h2, a, b])
  have : (decide (r.head = cr) && decide (r.headpos = p)) = false := by simpa using hd
  simp [mask, seen_succ, h1, h2, this]

theorem mask_step_other {cr p : Nat} {r : Edge} (h1 : ¬ (r.head = cr ∧ r.headpos = p))
    (h2 : ¬ (r.tail = cr ∧ r.tailpos = p)) : mask cr (p + 1) r = mask cr p r := by
  have e1 : (decide (r.head = cr) && decide (r.headpos = p)) = false := by simpa using h1
  have e2 : (decide (r.tail = cr) && decide (r.tailpos = p)) = false := by simpa using h2
  simp [mask, seen_succ, e1, e2]

section Decode

variable {cross : List Cross} {edge : List Edge}

theorem decodeSlot_ok (h : Consistent cross edge) {cr k ofs : Nat} {c : Cross} (c0 : Cross)
    (bits rest : List Nat) (hc : cross[cr]? = some c) (hk : k < 4)
    (hb : bits.drop ofs = slotBits cross.length edge cr c k ++ rest) :
    decodeSlot bits ofs cross.length cr c0 (edge.map (mask cr k)) k =
      (c0.wrPos k (c.at k)).bind (fun c' => .ok (c', edge.map (mask cr (k + 1)))) := by
  have hs : slot cross cr k = some (c.at k) := slot_eq_some.mpr ⟨hk, c, hc, rfl⟩
  obtain ⟨r, hr, hends⟩ := h.slots hs
  have helt := (List.getElem?_eq_some_iff.mp hr).1
  have hlt : c.at k < 2 * cross.length := by
    rw [← h.count]; exact helt
  have hne := h.ends_ne _ _ hr
  unfold decodeSlot
  have hd1 : bits.drop (ofs + 1) = idxBits (ceilLog2 (2 * cross.length)) (c.at k) ++ rest := by
    have := congrArg (List.drop 1) hb
    simpa [slotBits, List.drop_drop, Nat.add_comm] using this
  have hd0 : bits[ofs]? = some (if r.head = cr ∧ r.headpos = k then 1 else 0) := by
    have := congrArg (fun l => l[0]?) hb
    simpa [slotBits, hr] using this
  rw [hd1, idxBitdecode_append hlt, rd_ok hd0]
  have hm : (edge.map (mask cr k))[c.at k]? = some (mask cr k r) := by simp [hr]
  simp only [ok_bind]
  rw [rd_ok hm]
  have hwr : ∀ x, wr (edge.map (mask cr k)) (c.at k) x = .ok ((edge.map (mask cr k)).set (c.at k) x) :=
    fun x => wr_lt (by simpa using helt)
  have key : (edge.map (mask cr k)).set (c.at k) (mask cr (k + 1) r) = edge.map (mask cr (k + 1)) := by
    apply List.ext_getElem?
    intro i
    rw [List.getElem?_set]
    by_cases hi : c.at k = i
    · subst hi; simp [helt]
      have := List.getElem?_eq_getElem helt
      rw [hr] at this; simp at this; rw [this]
    · simp only [hi, if_false, List.getElem?_map]
      cases hri : edge[i]? with
      | none => rfl
      | some ri =>
        simp only [Option.map_some, Option.some.injEq]
        rw [mask_step_other]
        · rintro ⟨a, b⟩
          have := h.head _ _ hri
          rw [a, b, hs] at this; simp at this; exact hi this
        · rintro ⟨a, b⟩
          have := h.tail _ _ hri
          rw [a, b, hs] at this; simp at this; exact hi this
  by_cases hhd : r.head = cr ∧ r.headpos = k
  · have e := mask_step_head hhd.1 hhd.2 hne
    simp only [hhd, and_self, if_true]
    simp only [hwr, ok_bind, Bool.or_true, beq_self_eq_true, assertC_true]
    rw [← e, key]
    cases c0.wrPos k (c.at k) <;> rfl
  · have htl : r.tail = cr ∧ r.tailpos = k := by tauto
    have e := mask_step_tail htl.1 htl.2 hne
    simp only [hhd, if_false]
    simp only [hwr, ok_bind, Bool.true_or, beq_self_eq_true, assertC_true,
      Nat.zero_ne_one, if_false]
    rw [← e, key]
    cases c0.wrPos k (c.at k) <;> rfl

theorem seen_next (cr c k : Nat) (hk : k < 4) : seen cr 4 c k = seen (cr + 1) 0 c k := by
  rw [Bool.eq_iff_iff]; simp [seen]; omega

theorem map_mask_next (h : Consistent cross edge) (cr : Nat) :
    edge.map (mask cr 4) = edge.map (mask (cr + 1) 0) := by
  apply List.map_congr_left
  intro r hr
  obtain ⟨i, hi⟩ := List.mem_iff_getElem?.mp hr
  have h1 := (slot_lt (h.head _ _ hi)).2
  have h2 := (slot_lt (h.tail _ _ hi)).2
  simp [mask, seen_next, h1, h2]

/-- The crossing that decoding produces: the sign is what the decoder sets, or what the
buffer held before for an unsigned diagram. -/
def decodedCross (t : SignType) (old c : Cross) : Cross :=
  match t with
  | .signed => c
  | .unsigned => { c with sign := old.sign }

theorem crossingBitdecode_ok (h : Consistent cross edge) {cr : Nat} {c old : Cross} {t : SignType}
    (bits rest : List Nat) (hc : cross[cr]? = some c) (ht : t = .signed → c.sign ≠ .unset)
    (hb : bits = crossBits cross.length edge cr c t ++ rest)
    (cur : List Cross) (hlen : cur.length = cross.length) (hcur : cur[cr]? = some old) :
    crossingBitdecode bits cr (ceilLog2 (2 * cross.length)) cur (edge.map (mask cr 0)) t =
      .ok (cur.set cr (decodedCross t old c), edge.map (mask (cr + 1) 0)) := by
  have hcrlt : cr < cur.length := (List.getElem?_eq_some_iff.mp hcur).1
  set ib := ceilLog2 (2 * cross.length) with hib
  have hl : ∀ k, (slotBits cross.length edge cr c k).length = ib + 1 := slotBits_length _ _ _ _
  unfold crossingBitdecode
  rw [rd_ok hcur]
  simp only [ok_bind, hlen]
  cases t with
  | unsigned =>
    simp only [ok_bind]
    simp only [crossBits, signBits, List.nil_append] at hb
    have d0 : bits.drop 0 = slotBits cross.length edge cr c 0 ++ (slotBits cross.length edge cr c 1 ++
        slotBits cross.length edge cr c 2 ++ slotBits cross.length edge cr c 3 ++ rest) := by
      simp [hb]
    have d1 : bits.drop (0 + (ib + 1)) = slotBits cross.length edge cr c 1 ++ (
        slotBits cross.length edge cr c 2 ++ slotBits cross.length edge cr c 3 ++ rest) := by
      rw [hb]; simp only [List.append_assoc]
      rw [List.drop_append, hl]; simp [hl]
    have d2 : bits.drop (0 + 2 * (ib + 1)) = slotBits cross.length edge cr c 2 ++ (
        slotBits cross.length edge cr c 3 ++ rest) := by
      have : 0 + 2 * (ib + 1) = (0 + (ib + 1)) + (ib + 1) := by omega
      rw [this, ← List.drop_drop, d1, List.drop_append, hl]; simp [hl]
    have d3 : bits.drop (0 + 3 * (ib + 1)) = slotBits cross.length edge cr c 3 ++ rest := by
      have : 0 + 3 * (ib + 1) = (0 + 2 * (ib + 1)) + (ib + 1) := by omega
      rw [this, ← List.drop_drop, d2, List.drop_append, hl]; simp [hl]
    rw [decodeSlot_ok h old bits _ hc (by omega) d0]
    simp only [Cross.wrPos, Except.bind, ok_bind]
    rw [decodeSlot_ok h _ bits _ hc (by omega) d1]
    simp only [Cross.wrPos, Except.bind, ok_bind]
    rw [decodeSlot_ok h _ bits _ hc (by omega) d2]
    simp only [Cross.wrPos, Except.bind, ok_bind]
    rw [decodeSlot_ok h _ bits _ hc (by omega) d3]
    simp only [Cross.wrPos, Except.bind, ok_bind]
    rw [wr_lt hcrlt, ok_bind, map_mask_next h]
    rfl
  | signed =>
    simp only [crossBits, signBits] at hb
    have hb0 : bits[0]? = some (if c.sign = .pos then 1 else 0) := by rw [hb]; simp
    rw [rd_ok hb0]
    simp only [ok_bind]
    rw [assertC_ok (by split <;> simp)]
    simp only [ok_bind]
    have d0 : bits.drop 1 = slotBits cross.length edge cr c 0 ++ (slotBits cross.length edge cr c 1 ++
        slotBits cross.length edge cr c 2 ++ slotBits cross.length edge cr c 3 ++ rest) := by
      simp [hb]
    have d1 : bits.drop (1 + (ib + 1)) = slotBits cross.length edge cr c 1 ++ (
        slotBits cross.length edge cr c 2 ++ slotBits cross.length edge cr c 3 ++ rest) := by
      rw [← List.drop_drop, d0]; simp only [List.append_assoc]
      rw [List.drop_append, hl]; simp [hl]
    have d2 : bits.drop (1 + 2 * (ib + 1)) = slotBits cross.length edge cr c 2 ++ (
        slotBits cross.length edge cr c 3 ++ rest) := by
      have : 1 + 2 * (ib + 1) = (1 + (ib + 1)) + (ib + 1) := by omega
      rw [this, ← List.drop_drop, d1, List.drop_append, hl]; simp [hl]
    have d3 : bits.drop (1 + 3 * (ib + 1)) = slotBits cross.length edge cr c 3 ++ rest := by
      have : 1 + 3 * (ib + 1) = (1 + 2 * (ib + 1)) + (ib + 1) := by omega
      rw [this, ← List.drop_drop, d2, List.drop_append, hl]; simp [hl]
    rw [decodeSlot_ok h _ bits _ hc (by omega) d0]
    simp only [Cross.wrPos, Except.bind, ok_bind]
    rw [decodeSlot_ok h _ bits _ hc (by omega) d1]
    simp only [Cross.wrPos, Except.bind, ok_bind]
    rw [decodeSlot_ok h _ bits _ hc (by omega) d2]
    simp only [Cross.wrPos, Except.bind, ok_bind]
    rw [decodeSlot_ok h _ bits _ hc (by omega) d3]
    simp only [Cross.wrPos, Except.bind, ok_bind]
    rw [wr_lt hcrlt, ok_bind, map_mask_next h]
    have hsg := ht rfl
    have : (if (if c.sign = .pos then 1 else 0) = 1 then Or.pos else Or.neg) = c.sign := by
      cases hsc : c.sign <;> simp [hsc] at hsg ⊢
    rw [this]
    rfl

theorem unpackCrossings_ok (h : Consistent cross edge) {t : SignType}
    (ht : t = .signed → ∀ c ∈ cross, c.sign ≠ .unset) (bits : List Nat) :
    ∀ r k, k + r = cross.length →
      bits.drop (k * crossbits (ceilLog2 (2 * cross.length)) t) =
        bitsFrom cross.length edge t k (cross.drop k) →
      unpackCrossings bits (ceilLog2 (2 * cross.length)) t r k
        ((cross.take k).map (decodedCross t zeroCross) ++ List.replicate r zeroCross)
        (edge.map (mask k 0)) =
      .ok (cross.map (decodedCross t zeroCross), edge.map (mask cross.length 0)) := by
  intro r
  induction r with
  | zero =>
    intro k hk hb
    have : k = cross.length := by omega
    subst this
    simp [unpackCrossings]
  | succ r ih =>
    intro k hk hb
    have hlt : k < cross.length := by omega
    unfold unpackCrossings
    rw [List.drop_eq_getElem_cons hlt] at hb
    simp only [bitsFrom] at hb
    rw [crossingBitdecode_ok (old := zeroCross) h _ _ (List.getElem?_eq_getElem hlt)
      (fun hh => ht hh _ (List.getElem_mem hlt)) hb]
    · simp only [ok_bind]
      have e : ((cross.take k).map (decodedCross t zeroCross) ++ List.replicate (r + 1) zeroCross).set k
          (decodedCross t zeroCross cross[k]) =
          (cross.take (k + 1)).map (decodedCross t zeroCross) ++ List.replicate r zeroCross := by
        rw [List.set_append_right _ _ (by simp <;> omega)]
        have : k - ((cross.take k).map (decodedCross t zeroCross)).length = 0 := by simp <;> omega
        rw [this, List.replicate_succ, List.set_cons_zero, List.take_add_one,
          List.getElem?_eq_getElem hlt]
        simp only [List.map_append, Option.toList_some, List.map_cons, List.map_nil,
          List.append_assoc, List.cons_append, List.nil_append]
      rw [e]
      apply ih (k + 1) (by omega)
      rw [Nat.add_mul, Nat.one_mul, ← List.drop_drop, hb, List.drop_append, crossBits_length]
      simp [crossBits_length]
    · simp; omega
    · rw [List.getElem?_append_right (by simp)]
      have : k - ((cross.take k).map (decodedCross t zeroCross)).length = 0 := by simp <;> omega
      rw [this]; simp

theorem mask_zero (r : Edge) : mask 0 0 r = zeroEdge := by
  simp [mask, seen, zeroEdge]

theorem mask_full (h : Consistent cross edge) : edge.map (mask cross.length 0) = edge := by
  conv_rhs => rw [← List.map_id edge]
  apply List.map_congr_left
  intro r hr
  obtain ⟨i, hi⟩ := List.mem_iff_getElem?.mp hr
  have h1 := (slot_lt (h.head _ _ hi)).1
  have h2 := (slot_lt (h.tail _ _ hi)).1
  simp [mask, seen, h1, h2]

theorem pack_unpack (h : Consistent cross edge) (hne : cross ≠ []) (hbig : cross.length < 2147483648)
    (t : SignType) (ht : ∀ c ∈ cross, (c.sign = .unset ↔ t = .unsigned)) :
    ∃ ws, pack cross edge = .ok ws ∧ ws.length = nwords (cross.length * crossbits (ceilLog2 (2 * cross.length)) t) + 1 ∧
      unpackRaw ws = .ok (cross.map (decodedCross t zeroCross), edge) := by
  have hpos : 0 < cross.length := List.length_pos_iff.mpr hne
  have hsg : t = .signed → ∀ c ∈ cross, c.sign ≠ .unset := by
    intro hh c hc; have := ht c hc; subst hh; simpa using this
  obtain ⟨c0, cs, hcc⟩ := List.exists_cons_of_ne_nil hne
  have hc0 : cross[0]? = some c0 := by simp [hcc]
  have ht0 := ht c0 (by simp [hcc])
  -- the bits
  set ib := ceilLog2 (2 * cross.length) with hib
  set B := bitsFrom cross.length edge t 0 cross with hB
  have hBlen : B.length = cross.length * crossbits ib t := bitsFrom_length _ _ _ _ _
  have hBne : B ≠ [] := by
    rw [← List.length_pos_iff, hBlen]
    apply Nat.mul_pos hpos
    unfold crossbits; omega
  obtain ⟨ws, hw1, hw2⟩ := packbitstring_packed B (bitsFrom_bit _ _ _ _ _) hBne
  rw [hBlen] at hw1
  have htype : (if c0.sign = .unset then SignType.unsigned else SignType.signed) = t := by
    cases t with
    | unsigned => simp [ht0]
    | signed => simp [ht0]
  have hassert : (if c0.sign = .unset then cross.tail.all (fun c => c.sign == .unset)
           else cross.tail.all (fun c => c.sign != .unset)) = true := by
    split
    · rename_i hu
      have htu := ht0.mp hu
      rw [List.all_eq_true]
      intro c hc
      have := (ht c (List.mem_of_mem_tail hc)).mpr htu
      simp [this]
    · rename_i hu
      have htu : t ≠ .unsigned := fun hh => hu (ht0.mpr hh)
      rw [List.all_eq_true]
      intro c hc
      have := mt (ht c (List.mem_of_mem_tail hc)).mp htu
      simpa using this
  have hpc := packCrossings_ok h hsg cross.length 0 (by omega)
  simp only [List.drop_zero] at hpc
  have hunp := unpackbitstring_packed B ws (bitsFrom_bit _ _ _ _ _) hBne hw2
  have hdec := unpackCrossings_ok h hsg B cross.length 0 (by omega) (by simp [hB])
  simp only [List.take_zero, List.map_nil, List.nil_append] at hdec
  have e0 : edge.map (mask 0 0) = List.replicate (2 * cross.length) zeroEdge := by
    rw [← h.count]
    apply List.ext_getElem
    · simp
    · intro i h1 h2; simp [mask_zero]
  rw [e0, mask_full h] at hdec
  have hpb : packbits cross.length t = .ok B.length := by
    unfold packbits
    rw [indexbits_pos hpos, hBlen]
    simp only [ok_bind, crossbits]
    congr 2
    omega
  refine ⟨firstWord cross.length t :: ws, ?_, ?_, ?_⟩
  · unfold pack
    rw [rd_ok hc0]
    simp only [ok_bind]
    rw [assertC_ok hassert, ok_bind, htype, indexbits_pos hpos, ok_bind, hpc, ok_bind, ← hB, ← hib, hw1, ok_bind]
  · simp [hw2.1, hBlen]
  · unfold unpackRaw
    rw [rd_ok (a := firstWord cross.length t) (by simp)]
    simp only [ok_bind, List.tail_cons]
    cases t with
    | unsigned =>
      have c1 : 0 < cross.length ∧ cross.length < 2147483648 := ⟨hpos, hbig⟩
      simp only [firstWord, c1, and_self, if_true]
      rw [assertC_ok (by simp; omega), ok_bind, hpb, ok_bind, indexbits_pos hpos, ok_bind, hunp, ok_bind]
      exact hdec
    | signed =>
      have c1 : ¬ (0 < 4294967296 - cross.length ∧ 4294967296 - cross.length < 2147483648) := by omega
      have c2 : (4294967296 - (4294967296 - cross.length)) % 4294967296 = cross.length := by omega
      simp only [firstWord, c1, if_false, c2]
      rw [assertC_ok (by simp; omega), ok_bind, hpb, ok_bind, indexbits_pos hpos, ok_bind, hunp, ok_bind]
      exact hdec

end Decode

end Plc.Pack
