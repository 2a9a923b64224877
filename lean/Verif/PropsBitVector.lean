import Verif.IntegerCodes

/-!
# Properties C05 - C08 and C42: bit vectors, scanning, integer codes, triplets
-/

namespace Tongrams
open BitVector

/-- Specification: the number whose binary digits are `l`, least significant first. -/
def Spec.valOf : List Bool → Nat
  | [] => 0
  | b :: l => b.toNat + 2 * Spec.valOf l

theorem Spec.testBit_valOf (l : List Bool) (j : Nat) : (Spec.valOf l).testBit j = l.getD j false := by
  induction l generalizing j with
  | nil => simp [Spec.valOf]
  | cons b l ih =>
    cases j with
    | zero => cases b <;> simp [Spec.valOf, Nat.testBit_zero]
    | succ j =>
      rw [Nat.testBit_succ]
      have : Spec.valOf (b :: l) / 2 = Spec.valOf l := by
        simp only [Spec.valOf]; cases b <;> simp <;> omega
      rw [this, ih]; simp

/-! ## C05 -/

/-- Histories of a `bit_vector_builder` whose arguments are in range, paired with the same edits of a
plain list of booleans. -/
inductive BVHistory : BVBuilder → List Bool → Prop
  | new (size : Nat) (init : Bool) : BVHistory (BVBuilder.new size init) (List.replicate size init)
  | clear {b l} : BVHistory b l → BVHistory b.clear []
  | zeroExtend {b l} (n : Nat) : BVHistory b l → BVHistory (b.zeroExtend n) (l ++ List.replicate n false)
  | appendBits {b l b'} (v : W) (len : Nat) : BVHistory b l → len ≤ 64 → v.toNat < 2 ^ len →
      b.appendBits v len = some b' → BVHistory b' (l ++ (List.range len).map v.getLsbD)
  | set {b l b'} (pos : Nat) (v : Bool) : BVHistory b l → pos < l.length →
      b.set pos v = some b' → BVHistory b' (l.set pos v)
  | setBits {b l b'} (pos len : Nat) (v : W) : BVHistory b l → len ≤ 64 → v.toNat < 2 ^ len →
      pos + len ≤ l.length → b.setBits pos v len = some b' →
      BVHistory b' (l.take pos ++ (List.range len).map v.getLsbD ++ l.drop (pos + len))
  | append {b l r m b'} : BVHistory b l → BVHistory r m → b.append r = some b' → BVHistory b' (l ++ m)

theorem BVHistory.wf {b : BVBuilder} {l : List Bool} (h : BVHistory b l) : b.WF ∧ b.toBools = l := by
  induction h with
  | new size init => exact BVBuilder.new_wf size init
  | clear _ _ => exact BVBuilder.clear_wf _
  | zeroExtend n _ ih => obtain ⟨w, rfl⟩ := ih; exact BVBuilder.zeroExtend_wf w n
  | appendBits v len _ hl hv e ih =>
    obtain ⟨w, rfl⟩ := ih
    obtain ⟨b', e', w', t'⟩ := BVBuilder.appendBits_wf w hl hv
    rw [e] at e'; cases e'; exact ⟨w', t'⟩
  | set pos v _ hp e ih =>
    obtain ⟨w, rfl⟩ := ih
    rw [BVBuilder.length_toBools] at hp
    obtain ⟨b', e', w', t'⟩ := BVBuilder.set_wf w hp v
    rw [e] at e'; cases e'; exact ⟨w', t'⟩
  | setBits pos len v _ hl hv hp e ih =>
    obtain ⟨w, rfl⟩ := ih
    rw [BVBuilder.length_toBools] at hp
    obtain ⟨b', e', w', t'⟩ := BVBuilder.setBits_wf w hl hp hv
    rw [e] at e'; cases e'; exact ⟨w', t'⟩
  | append _ _ e ih1 ih2 =>
    obtain ⟨w1, rfl⟩ := ih1
    obtain ⟨w2, rfl⟩ := ih2
    obtain ⟨b', e', w', t'⟩ := BVBuilder.append_wf w1 w2
    rw [e] at e'; cases e'; exact ⟨w', t'⟩

theorem BVHistory.bitAt {b : BVBuilder} {l : List Bool} (h : BVHistory b l) (i : Nat) :
    bitAt b.bits i = l.getD i false := by
  obtain ⟨w, rfl⟩ := h.wf
  by_cases hi : i < b.size
  · have : i < b.toBools.length := by rw [BVBuilder.length_toBools]; exact hi
    rw [List.getD_eq_getElem?_getD, List.getElem?_eq_getElem this, Option.getD_some, BVBuilder.getElem_toBools]
  · rw [w.high i (by omega), List.getD_eq_getElem?_getD,
      List.getElem?_eq_none (by rw [BVBuilder.length_toBools]; omega)]; rfl

theorem BVHistory.size {b : BVBuilder} {l : List Bool} (h : BVHistory b l) : b.size = l.length := by
  obtain ⟨_, rfl⟩ := h.wf; rw [BVBuilder.length_toBools]

theorem BVHistory.le {b : BVBuilder} {l : List Bool} (h : BVHistory b l) : l.length ≤ 64 * b.bits.length := by
  rw [← h.size]; exact h.wf.1.le

/-- Every builder operation with in-range arguments succeeds (no access outside the words). -/
theorem C05_operations_succeed {b : BVBuilder} {l : List Bool} (h : BVHistory b l) :
    (∀ (v : W) len, len ≤ 64 → v.toNat < 2 ^ len → (b.appendBits v len).isSome) ∧
    (∀ pos v, pos < l.length → (b.set pos v).isSome) ∧
    (∀ pos len (v : W), len ≤ 64 → v.toNat < 2 ^ len → pos + len ≤ l.length → (b.setBits pos v len).isSome) ∧
    (∀ r m, BVHistory r m → (b.append r).isSome) := by
  obtain ⟨w, rfl⟩ := h.wf
  refine ⟨fun v len hl hv => ?_, fun pos v hp => ?_, fun pos len v hl hv hp => ?_, fun r m hr => ?_⟩
  · obtain ⟨b', e, _⟩ := BVBuilder.appendBits_wf w hl hv; rw [e]; rfl
  · rw [BVBuilder.length_toBools] at hp
    obtain ⟨b', e, _⟩ := BVBuilder.set_wf w hp v; rw [e]; rfl
  · rw [BVBuilder.length_toBools] at hp
    obtain ⟨b', e, _⟩ := BVBuilder.setBits_wf w hl hp hv; rw [e]; rfl
  · obtain ⟨b', e, _⟩ := BVBuilder.append_wf w hr.wf.1; rw [e]; rfl

theorem eq_ofNat_of_bits {x : W} {n : Nat} (h : ∀ j, j < 64 → x.getLsbD j = n.testBit j) : x = BitVec.ofNat 64 n := by
  apply BitVec.eq_of_getLsbD_eq
  intro j hj
  rw [h j hj, BitVec.getLsbD_ofNat]; simp [hj]

theorem getD_drop_take (l : List Bool) (pos len j : Nat) :
    ((l.drop pos).take len).getD j false = (decide (j < len) && l.getD (pos + j) false) := by
  rw [List.getD_eq_getElem?_getD, List.getElem?_take, List.getD_eq_getElem?_getD]
  by_cases h : j < len
  · simp [h]
  · simp [h]

/-- After any history the built vector is the edited list: `size`, `operator[]`, `get_bits`,
`get_word64`. -/
theorem C05_bit_vector_is_list {b : BVBuilder} {l : List Bool} (h : BVHistory b l) :
    (BitVector.ofBuilder b).size = l.length ∧
    (∀ i (hi : i < l.length), (BitVector.ofBuilder b).get i = some (if l[i] then 1#64 else 0#64)) ∧
    (∀ pos len, len ≤ 64 → pos + len ≤ l.length →
      (BitVector.ofBuilder b).getBits pos len = some (BitVec.ofNat 64 (Spec.valOf ((l.drop pos).take len)))) ∧
    (∀ pos, pos < l.length →
      getWord64 (BitVector.ofBuilder b).bits pos = some (BitVec.ofNat 64 (Spec.valOf ((l.drop pos).take 64)))) := by
  have hle := h.le
  refine ⟨h.size, fun i hi => ?_, fun pos len hl hp => ?_, fun pos hp => ?_⟩
  · have hb : Tongrams.bitAt (ofBuilder b).bits i = l[i] := by
      rw [show Tongrams.bitAt (ofBuilder b).bits i = Tongrams.bitAt b.bits i from rfl, h.bitAt,
        List.getD_eq_getElem?_getD, List.getElem?_eq_getElem hi, Option.getD_some]
    rw [BitVector.get_spec (by simp only [ofBuilder]; omega)]
    simp only [hb]
  · obtain ⟨x, e, hx⟩ := BitVector.getBits_spec (bv := ofBuilder b) (pos := pos) (len := len)
      (by simp only [ofBuilder]; omega) hl
    rw [e]
    congr 1
    apply eq_ofNat_of_bits
    intro j _
    rw [hx, Spec.testBit_valOf, getD_drop_take]
    simp only [ofBuilder]; rw [h.bitAt]
  · obtain ⟨x, e, hx⟩ := BitVector.getWord64_spec (ws := (ofBuilder b).bits) (pos := pos)
      (by simp only [ofBuilder]; omega)
    rw [e]
    congr 1
    apply eq_ofNat_of_bits
    intro j hj
    rw [hx j hj, Spec.testBit_valOf, getD_drop_take]
    simp only [ofBuilder]; rw [h.bitAt]; simp [hj]

/-- `get_word56` returns the next 56 bits (at least) whatever follows the vector in memory. -/
theorem C05_get_word56 {b : BVBuilder} {l : List Bool} (h : BVHistory b l) {junk : List W} (hj : junk ≠ [])
    {pos len : Nat} (hlen : len ≤ 56) (hp : pos + len ≤ l.length) (h0 : 0 < len) :
    ∃ x, getWord56 (BitVector.ofBuilder b).bits junk pos = some x ∧
      ∀ j, j < len → x.getLsbD j = l.getD (pos + j) false := by
  have hle := h.le
  obtain ⟨x, e, hx⟩ := BitVector.getWord56_spec (ws := (ofBuilder b).bits) hj (pos := pos)
    (by simp only [ofBuilder]; omega)
  refine ⟨x, e, fun j hjl => ?_⟩
  rw [hx j (by omega), bitAt_append_left _ (by simp only [ofBuilder]; omega)]
  exact h.bitAt _

/-- Non-vacuity: a history with appends straddling a word, an overwrite and a concatenation. -/
example : ∃ b l, BVHistory b l ∧ l.length = 141 := by
  obtain ⟨h1, _, _, h4⟩ := C05_operations_succeed (BVHistory.new 70 true)
  obtain ⟨b1, e1⟩ := Option.isSome_iff_exists.1 (h4 _ _ (BVHistory.new 70 false))
  have hb1 := BVHistory.append (BVHistory.new 70 true) (BVHistory.new 70 false) e1
  obtain ⟨_, h2, _, _⟩ := C05_operations_succeed hb1
  obtain ⟨b2, e2⟩ := Option.isSome_iff_exists.1 (h2 100 true (by simp))
  have hb2 := BVHistory.set 100 true hb1 (by simp) e2
  exact ⟨_, _, BVHistory.zeroExtend 1 hb2, by simp⟩

/-! ## C06 -/

/-- `predecessor1(pos)` is the last set bit at or before `pos`. -/
theorem C06_predecessor1 {b : BVBuilder} {l : List Bool} (h : BVHistory b l) {pos p : Nat}
    (hpos : pos < l.length) (hp : l.getD p false = true) (hle : p ≤ pos)
    (hz : ∀ q, p < q → q ≤ pos → l.getD q false = false) :
    predecessor1 (BitVector.ofBuilder b).bits pos = some p := by
  have := h.le
  apply predecessor1_spec (by simp only [ofBuilder]; omega) _ hle
  · intro q h1 h2; simp only [ofBuilder]; rw [h.bitAt]; exact hz q h1 h2
  · simp only [ofBuilder]; rw [h.bitAt]; exact hp

/-- `n` calls of `unary_iterator::next` and their results. -/
def UnaryIter.nextN : Nat → UnaryIter → Option (List Nat × UnaryIter)
  | 0, it => some ([], it)
  | n + 1, it => do
    let (p, it) ← it.next
    let (ps, it) ← nextN n it
    return (p :: ps, it)

theorem ones_cons {f : Nat → Bool} {c N p : Nat} {ps : List Nat}
    (h : (List.range' c (N - c)).filter f = p :: ps) :
    c ≤ p ∧ p < N ∧ f p = true ∧ (∀ i, c ≤ i → i < p → f i = false) ∧
      (List.range' (p + 1) (N - (p + 1))).filter f = ps := by
  obtain ⟨l1, l2, e, hl1, hfp, hl2⟩ := List.filter_eq_cons_iff.1 h
  have hlen := congrArg List.length e
  simp only [List.length_range', List.length_append, List.length_cons] at hlen
  have hp : p = c + l1.length := by
    have := congrArg (fun l => l[l1.length]?) e
    simp only [List.getElem?_append_right (Nat.le_refl _), Nat.sub_self, List.getElem?_cons_zero] at this
    rw [List.getElem?_eq_getElem (by simp; omega)] at this
    simp at this; omega
  refine ⟨by omega, by omega, hfp, ?_, ?_⟩
  · intro i h1 h2
    have hi : i ∈ l1 := by
      have := congrArg (fun l => l[i - c]?) e
      rw [List.getElem?_append_left (by omega), List.getElem?_eq_getElem (by simp; omega)] at this
      simp only [List.getElem_range'] at this
      have h3 := List.mem_of_getElem? this.symm
      rwa [show c + 1 * (i - c) = i by omega] at h3
    have := hl1 i hi
    simpa using this
  · have hd := congrArg (List.drop (l1.length + 1)) e
    rw [List.drop_range', List.drop_append, List.drop_of_length_le (l := l1) (by omega)] at hd
    simp only [show l1.length + 1 - l1.length = 1 by omega, List.drop_succ_cons, List.drop_zero, List.nil_append,
      Nat.mul_one] at hd
    rw [show c + (l1.length + 1) = p + 1 by omega, show N - c - (l1.length + 1) = N - (p + 1) by omega] at hd
    rw [hd]; exact hl2

theorem nextN_spec : ∀ (ps : List Nat) (n : Nat) (it : UnaryIter) (c N : Nat), it.At c →
    (List.range' c (N - c)).filter (bitAt it.ws) = ps → n ≤ ps.length →
    ∃ it', UnaryIter.nextN n it = some (ps.take n, it') := by
  intro ps n
  induction n generalizing ps with
  | zero => intro it c N _ _ _; exact ⟨it, by simp [UnaryIter.nextN]⟩
  | succ n ih =>
    intro it c N hat hf hn
    cases ps with
    | nil => simp at hn
    | cons p ps =>
      obtain ⟨h1, h2, h3, h4, h5⟩ := ones_cons hf
      obtain ⟨it1, e1, w1, p1, a1⟩ := UnaryIter.next_spec hat h3 h1 h4
      obtain ⟨it2, e2⟩ := ih ps it1 (p + 1) N a1 (by rw [w1]; exact h5) (by simpa using hn)
      refine ⟨it2, ?_⟩
      simp [UnaryIter.nextN, e1, e2]

/-- A unary iterator started at `pos` enumerates exactly the positions of the set bits `≥ pos`, in
increasing order: its first `n` results are the first `n` of them. -/
theorem C06_unary_iterator_enumerates {b : BVBuilder} {l : List Bool} (h : BVHistory b l) {pos : Nat}
    (hpos : pos < l.length) (n : Nat)
    (hn : n ≤ ((List.range' pos (l.length - pos)).filter (fun i => l.getD i false)).length) :
    ∃ it it', UnaryIter.new (BitVector.ofBuilder b).bits pos = some it ∧
      it.nextN n = some (((List.range' pos (l.length - pos)).filter (fun i => l.getD i false)).take n, it') := by
  have := h.le
  obtain ⟨it, e, hw, hp, hat⟩ := UnaryIter.new_at (ws := (ofBuilder b).bits) (pos := pos)
    (by simp only [ofBuilder]; omega)
  have hf : (bitAt it.ws) = fun i => l.getD i false := by
    funext i; rw [hw]; exact h.bitAt i
  obtain ⟨it', e'⟩ := nextN_spec _ n it pos l.length hat (by rw [hf]) hn
  exact ⟨it, it', e, e'⟩

/-- `skip(k)` from `pos` lands on the `k`-th one (from 0) at or after `pos`, and iteration goes on
from there. -/
theorem C06_skip {b : BVBuilder} {l : List Bool} (h : BVHistory b l) {pos k q : Nat}
    (hpos : pos < l.length) (hq : ((List.range' pos (l.length - pos)).filter (fun i => l.getD i false))[k]? = some q) :
    ∃ it it', UnaryIter.new (BitVector.ofBuilder b).bits pos = some it ∧ it.skip k = some it' ∧
      it'.position = q ∧ ∃ it'', it'.next = some (q, it'') := by
  have := h.le
  obtain ⟨it, e, hw, hp, hat⟩ := UnaryIter.new_at (ws := (ofBuilder b).bits) (pos := pos)
    (by simp only [ofBuilder]; omega)
  have hf : (bitAt it.ws) = fun i => l.getD i false := by
    funext i; rw [hw]; exact h.bitAt i
  -- characterise q
  have key : ∀ (k c : Nat), ((List.range' c (l.length - c)).filter (bitAt it.ws))[k]? = some q →
      c ≤ q ∧ bitAt it.ws q = true ∧ Spec.rank (bitAt it.ws) q = Spec.rank (bitAt it.ws) c + k := by
    intro k
    induction k with
    | zero =>
      intro c hk
      cases hfl : (List.range' c (l.length - c)).filter (bitAt it.ws) with
      | nil => rw [hfl] at hk; simp at hk
      | cons p ps =>
        rw [hfl] at hk
        obtain ⟨h1, h2, h3, h4, h5⟩ := ones_cons hfl
        simp only [List.getElem?_cons_zero, Option.some.injEq] at hk
        subst hk
        refine ⟨h1, h3, ?_⟩
        have := Spec.rank_add (bitAt it.ws) c (p - c)
        rw [show c + (p - c) = p by omega, Spec.rank_false (f := fun i => bitAt it.ws (c + i))
          (fun i hi => h4 _ (by omega) (by omega))] at this
        omega
    | succ k ih =>
      intro c hk
      cases hfl : (List.range' c (l.length - c)).filter (bitAt it.ws) with
      | nil => rw [hfl] at hk; simp at hk
      | cons p ps =>
        rw [hfl] at hk
        obtain ⟨h1, h2, h3, h4, h5⟩ := ones_cons hfl
        simp only [List.getElem?_cons_succ] at hk
        rw [← h5] at hk
        obtain ⟨g1, g2, g3⟩ := ih (p + 1) hk
        refine ⟨by omega, g2, ?_⟩
        have := Spec.rank_add (bitAt it.ws) c (p - c)
        rw [show c + (p - c) = p by omega, Spec.rank_false (f := fun i => bitAt it.ws (c + i))
          (fun i hi => h4 _ (by omega) (by omega))] at this
        rw [g3, Spec.rank_succ, h3]; simp; omega
  obtain ⟨k1, k2, k3⟩ := key k pos (by rw [hf]; exact hq)
  obtain ⟨it', e', w', p', a'⟩ := UnaryIter.skip_spec hat k2 k1 k3
  obtain ⟨it'', e'', _⟩ := UnaryIter.next_spec a' (by rw [w']; exact k2) (Nat.le_refl q)
    (fun i h1 h2 => absurd h1 (by omega))
  exact ⟨it, it', e, e', p', it'', e''⟩

/-- `skip0(k)` from a freshly placed iterator lands on the `k`-th zero (from 0) at or after `pos`. -/
theorem C06_skip0 {b : BVBuilder} {l : List Bool} (h : BVHistory b l) {pos k q : Nat}
    (hpos : pos < l.length) (hq : ((List.range' pos (l.length - pos)).filter (fun i => !l.getD i false))[k]? = some q) :
    ∃ it it', UnaryIter.new (BitVector.ofBuilder b).bits pos = some it ∧ it.skip0 k = some it' ∧
      it'.position = q := by
  have := h.le
  obtain ⟨it, e, hw, hp, hat⟩ := UnaryIter.new_at (ws := (ofBuilder b).bits) (pos := pos)
    (by simp only [ofBuilder]; omega)
  have hf : (fun i => !bitAt it.ws i) = fun i => !l.getD i false := by
    funext i; rw [hw]; rw [show bitAt (ofBuilder b).bits i = bitAt b.bits i from rfl, h.bitAt i]
  have key : ∀ (k c : Nat), ((List.range' c (l.length - c)).filter (fun i => !bitAt it.ws i))[k]? = some q →
      c ≤ q ∧ q < l.length ∧ bitAt it.ws q = false ∧
        Spec.rank (fun i => !bitAt it.ws i) q = Spec.rank (fun i => !bitAt it.ws i) c + k := by
    intro k
    induction k with
    | zero =>
      intro c hk
      cases hfl : (List.range' c (l.length - c)).filter (fun i => !bitAt it.ws i) with
      | nil => rw [hfl] at hk; simp at hk
      | cons p ps =>
        rw [hfl] at hk
        obtain ⟨h1, h2, h3, h4, h5⟩ := ones_cons hfl
        simp only [List.getElem?_cons_zero, Option.some.injEq] at hk
        subst hk
        refine ⟨h1, h2, by simpa using h3, ?_⟩
        have := Spec.rank_add (fun i => !bitAt it.ws i) c (p - c)
        rw [show c + (p - c) = p by omega, Spec.rank_false (f := fun i => !bitAt it.ws (c + i))
          (fun i hi => h4 _ (by omega) (by omega))] at this
        omega
    | succ k ih =>
      intro c hk
      cases hfl : (List.range' c (l.length - c)).filter (fun i => !bitAt it.ws i) with
      | nil => rw [hfl] at hk; simp at hk
      | cons p ps =>
        rw [hfl] at hk
        obtain ⟨h1, h2, h3, h4, h5⟩ := ones_cons hfl
        simp only [List.getElem?_cons_succ] at hk
        rw [← h5] at hk
        obtain ⟨g1, g2, g3, g4⟩ := ih (p + 1) hk
        refine ⟨by omega, g2, g3, ?_⟩
        have := Spec.rank_add (fun i => !bitAt it.ws i) c (p - c)
        rw [show c + (p - c) = p by omega, Spec.rank_false (f := fun i => !bitAt it.ws (c + i))
          (fun i hi => h4 _ (by omega) (by omega))] at this
        rw [g4, Spec.rank_succ, h3]; simp; omega
  obtain ⟨k1, k2, k3, k4⟩ := key k pos (by rw [hf]; exact hq)
  rw [← hp] at k1 k4 hat
  obtain ⟨it', e', w', p', a'⟩ := UnaryIter.skip0_spec hat (by rw [hw]; simp only [ofBuilder]; omega) k3 k1 k4
  exact ⟨it, it', e, e', p'⟩

/-- The `k`-th position (from 0) at or after `c` and before `N` where `f` holds, by ranks. -/
theorem kth_rank {f : Nat → Bool} {N q : Nat} : ∀ (k c : Nat), ((List.range' c (N - c)).filter f)[k]? = some q →
    c ≤ q ∧ q < N ∧ f q = true ∧ Spec.rank f q = Spec.rank f c + k := by
  intro k
  induction k with
  | zero =>
    intro c hk
    cases hfl : (List.range' c (N - c)).filter f with
    | nil => rw [hfl] at hk; simp at hk
    | cons p ps =>
      rw [hfl] at hk
      obtain ⟨h1, h2, h3, h4, h5⟩ := ones_cons hfl
      simp only [List.getElem?_cons_zero, Option.some.injEq] at hk
      subst hk
      refine ⟨h1, h2, h3, ?_⟩
      have := Spec.rank_add f c (p - c)
      rw [show c + (p - c) = p by omega, Spec.rank_false (f := fun i => f (c + i)) (fun i hi => h4 _ (by omega) (by omega))] at this
      omega
  | succ k ih =>
    intro c hk
    cases hfl : (List.range' c (N - c)).filter f with
    | nil => rw [hfl] at hk; simp at hk
    | cons p ps =>
      rw [hfl] at hk
      obtain ⟨h1, h2, h3, h4, h5⟩ := ones_cons hfl
      simp only [List.getElem?_cons_succ] at hk
      rw [← h5] at hk
      obtain ⟨g1, g2, g3, g4⟩ := ih (p + 1) hk
      refine ⟨by omega, g2, g3, ?_⟩
      have := Spec.rank_add f c (p - c)
      rw [show c + (p - c) = p by omega, Spec.rank_false (f := fun i => f (c + i)) (fun i hi => h4 _ (by omega) (by omega))] at this
      rw [g4, Spec.rank_succ, h3]; simp; omega

/-- A call on a unary iterator. -/
inductive UnaryIter.Op
  | next
  | skip (k : Nat)
  | skip0 (k : Nat)

/-- Any sequence of calls; the positions after each of them (`next()` returns the position). -/
def UnaryIter.run : List UnaryIter.Op → UnaryIter → Option (List Nat)
  | [], _ => some []
  | .next :: ops, it => it.next.bind fun r => (run ops r.2).map (r.1 :: ·)
  | .skip k :: ops, it => (it.skip k).bind fun it => (run ops it).map (it.position :: ·)
  | .skip0 k :: ops, it => (it.skip0 k).bind fun it => (run ops it).map (it.position :: ·)

/-- Specification: the `k`-th position (from 0) at or after `c` of the list with the bit `x`. -/
def Spec.kth (l : List Bool) (x : Bool) (c k : Nat) : Option Nat := ((List.range' c (l.length - c)).filter fun i => l.getD i false == x)[k]?

/-- Specification: a cursor over the bits `l` at position `p`.  `next` takes the first one at or after the cursor and clears it from the list; `skip k` moves to the
`k`-th one, `skip0 k` to the `k`-th zero at or after the cursor (a one that `next` has taken counts as a zero); `none`: there is none. -/
def Spec.unaryRun : List UnaryIter.Op → List Bool → Nat → Option (List Nat)
  | [], _, _ => some []
  | .next :: ops, l, p => (kth l true p 0).bind fun q => (unaryRun ops (l.set q false) q).map (q :: ·)
  | .skip k :: ops, l, p => (kth l true p k).bind fun q => (unaryRun ops l q).map (q :: ·)
  | .skip0 k :: ops, l, p => (kth l false p k).bind fun q => (unaryRun ops l q).map (q :: ·)

/-- What the iterator sees: from its position on the bits of the list, in the buffered word and in the words after it. -/
structure UnaryIter.Sees (it : UnaryIter) (l : List Bool) : Prop where
  len : l.length ≤ 64 * it.ws.length
  buf : ∀ j, j < 64 → it.buf.getLsbD j = (decide (it.position ≤ it.position / 64 * 64 + j) && l.getD (it.position / 64 * 64 + j) false)
  later : ∀ i, it.position < i → bitAt it.ws i = l.getD i false
  here : l.getD it.position false = true → bitAt it.ws it.position = true

/-- The first position the iterator will report from: its own, or the next one when the one there has been taken. -/
theorem UnaryIter.Sees.at {it : UnaryIter} {l : List Bool} (h : it.Sees l) : ∃ c, it.At c ∧ it.position ≤ c ∧ c ≤ it.position + 1 ∧
    (∀ i, c ≤ i → bitAt it.ws i = l.getD i false) ∧ (∀ i, it.position ≤ i → i < c → l.getD i false = false) := by
  cases hl : l.getD it.position false with
  | true =>
    have hh : ∀ i, it.position ≤ i → bitAt it.ws i = l.getD i false := fun i hi => by
      by_cases e : i = it.position
      · rw [e, hl]; exact h.here hl
      · exact h.later i (by omega)
    refine ⟨it.position, ⟨by omega, by omega, fun j hj => ?_⟩, Nat.le_refl _, by omega, hh, fun i h1 h2 => absurd h1 (by omega)⟩
    rw [h.buf j hj]
    by_cases hc : it.position ≤ it.position / 64 * 64 + j
    · rw [hh _ hc]
    · simp [hc]
  | false =>
    refine ⟨it.position + 1, ⟨by omega, by omega, fun j hj => ?_⟩, by omega, Nat.le_refl _, fun i hi => h.later i (by omega), fun i h1 h2 => ?_⟩
    · rw [h.buf j hj]
      by_cases hc : it.position + 1 ≤ it.position / 64 * 64 + j
      · rw [h.later _ hc]
        have : it.position ≤ it.position / 64 * 64 + j := by omega
        simp [hc, this]
      · by_cases e : it.position ≤ it.position / 64 * 64 + j
        · rw [show it.position / 64 * 64 + j = it.position by omega, hl]; simp; intro hh; omega
        · simp [hc, e]
    · rw [show i = it.position by omega]; exact hl

theorem Spec.rank_congr_from {f g : Nat → Bool} {c q : Nat} (hc : c ≤ q) (h : ∀ i, c ≤ i → i < q → f i = g i) {k : Nat}
    (hk : Spec.rank f q = Spec.rank f c + k) : Spec.rank g q = Spec.rank g c + k := by
  induction q generalizing k with
  | zero => have : c = 0 := by omega
            subst this; omega
  | succ q ih =>
    by_cases e : c = q + 1
    · subst e; omega
    · rw [Spec.rank_succ] at hk ⊢
      rw [← h q (by omega) (by omega)]
      have hmono : Spec.rank f c ≤ Spec.rank f q := by
        have := Spec.rank_add f c (q - c)
        rw [show c + (q - c) = q by omega] at this; omega
      have := ih (by omega) (fun i h1 h2 => h i h1 (by omega)) (k := Spec.rank f q - Spec.rank f c) (by omega)
      omega

theorem UnaryIter.Sees.step {it : UnaryIter} {l : List Bool} (h : it.Sees l) {q : Nat} :
    (Spec.kth l true it.position 0 = some q → ∃ it', it.next = some (q, it') ∧ it'.position = q ∧ it'.Sees (l.set q false)) ∧
    (∀ k, Spec.kth l true it.position k = some q → ∃ it', it.skip k = some it' ∧ it'.position = q ∧ it'.Sees l) ∧
    (∀ k, Spec.kth l false it.position k = some q → ∃ it', it.skip0 k = some it' ∧ it'.position = q ∧ it'.Sees l) := by
  obtain ⟨c, hat, hc1, hc2, hsame, hgone⟩ := h.at
  have hlen := h.len
  have hone : ∀ k, Spec.kth l true it.position k = some q → c ≤ q ∧ q < l.length ∧ bitAt it.ws q = true ∧
      Spec.rank (bitAt it.ws) q = Spec.rank (bitAt it.ws) c + k := by
    intro k hk
    unfold Spec.kth at hk
    obtain ⟨h1, h2, h3, h4⟩ := kth_rank k _ hk
    have e : (fun i => l.getD i false == true) = fun i => l.getD i false := by funext i; cases l.getD i false <;> rfl
    rw [e] at h4
    simp only [beq_iff_eq] at h3
    have hcq : c ≤ q := by
      by_cases hcq : c ≤ q
      · exact hcq
      · rw [hgone q h1 (by omega)] at h3; cases h3
    have hr : Spec.rank (fun i => l.getD i false) c = Spec.rank (fun i => l.getD i false) it.position := by
      by_cases e : c = it.position
      · rw [e]
      · rw [show c = it.position + 1 by omega, Spec.rank_succ, hgone it.position (Nat.le_refl _) (by omega)]; rfl
    rw [← hr] at h4
    exact ⟨hcq, h2, by rw [hsame q hcq]; exact h3, Spec.rank_congr_from hcq (fun i hi _ => (hsame i hi).symm) h4⟩
  refine ⟨fun hk => ?_, fun k hk => ?_, fun k hk => ?_⟩
  · obtain ⟨h1, h2, h3, h4⟩ := hone 0 hk
    obtain ⟨it', e, w, p, a⟩ := UnaryIter.next_spec hat h3 h1 (fun i hi1 hi2 => by
      have g1 := Spec.rank_add (bitAt it.ws) c (i - c)
      have g2 := Spec.rank_add (bitAt it.ws) (i + 1) (q - (i + 1))
      rw [show c + (i - c) = i by omega] at g1
      rw [show i + 1 + (q - (i + 1)) = q by omega, Spec.rank_succ] at g2
      cases hb : bitAt it.ws i with
      | false => rfl
      | true => rw [hb] at g2; simp at g2; omega)
    refine ⟨it', e, p, ?_, ?_, ?_, ?_⟩
    · rw [w, List.length_set]; exact hlen
    · intro j hj
      rw [a.buf j hj, w, p]
      by_cases e1 : q + 1 ≤ q / 64 * 64 + j
      · rw [hsame _ (by omega)]
        have e2 : q ≤ q / 64 * 64 + j := by omega
        simp only [e1, e2, decide_true, Bool.true_and, List.getD_eq_getElem?_getD]
        rw [List.getElem?_set_ne (by omega)]
      · by_cases e2 : q ≤ q / 64 * 64 + j
        · rw [show q / 64 * 64 + j = q by omega]
          simp [h2]; intro hh; omega
        · simp [e1, e2]
    · intro i hi
      rw [p] at hi
      rw [w, hsame i (by omega)]
      simp only [List.getD_eq_getElem?_getD]
      rw [List.getElem?_set_ne (by omega)]
    · rw [p]; simp [h2]
  · obtain ⟨h1, h2, h3, h4⟩ := hone k hk
    obtain ⟨it', e, w, p, a⟩ := UnaryIter.skip_spec hat h3 h1 h4
    refine ⟨it', e, p, ?_, ?_, ?_, ?_⟩
    · rw [w]; exact hlen
    · intro j hj
      rw [a.buf j hj, w, p]
      by_cases e1 : q ≤ q / 64 * 64 + j
      · rw [hsame _ (by omega)]
      · simp [e1]
    · intro i hi; rw [p] at hi; rw [w]; exact hsame i (by omega)
    · rw [p, w, hsame q h1]; exact id
  · unfold Spec.kth at hk
    obtain ⟨h1, h2, h3, h4⟩ := kth_rank k _ hk
    have e : (fun i => l.getD i false == false) = fun i => !(l.getD i false) := by funext i; cases l.getD i false <;> rfl
    rw [e] at h4
    simp only [beq_iff_eq] at h3
    obtain ⟨it', e', w, p, a⟩ := UnaryIter.skip0_gen (f := fun i => l.getD i false) (q := q) (k := k) (by omega) (fun i hi => (h.later i hi).symm)
      (fun j hj hle => by rw [h.buf j hj]; simp [hle]) h3 h1 h4
    refine ⟨it', e', p, by rw [w]; exact hlen, fun j hj => by rw [p]; exact a j hj, fun i hi => ?_, fun hh => ?_⟩
    · rw [p] at hi; rw [w]; exact h.later i (by omega)
    · rw [p] at hh; rw [h3] at hh; cases hh

theorem UnaryIter.run_eq : ∀ (ops : List UnaryIter.Op) (it : UnaryIter) (l : List Bool) (rs : List Nat), it.Sees l →
    Spec.unaryRun ops l it.position = some rs → it.run ops = some rs
  | [], it, l, rs, _, e => e
  | .next :: ops, it, l, rs, h, e => by
    simp only [Spec.unaryRun, Option.bind_eq_some_iff, Option.map_eq_some_iff] at e
    obtain ⟨q, hq, rs', e1, e2⟩ := e
    obtain ⟨it', e', hp, hs⟩ := h.step.1 hq
    rw [← hp] at e1
    have hr := run_eq ops it' _ rs' (by rw [← hp] at hs; exact hs) e1
    simp only [UnaryIter.run, e', Option.bind_some, hr, Option.map_some, e2]
  | .skip k :: ops, it, l, rs, h, e => by
    simp only [Spec.unaryRun, Option.bind_eq_some_iff, Option.map_eq_some_iff] at e
    obtain ⟨q, hq, rs', e1, e2⟩ := e
    obtain ⟨it', e', hp, hs⟩ := h.step.2.1 k hq
    rw [← hp] at e1 e2
    simp only [UnaryIter.run, e', Option.bind_some, run_eq ops it' _ rs' hs e1, Option.map_some, e2]
  | .skip0 k :: ops, it, l, rs, h, e => by
    simp only [Spec.unaryRun, Option.bind_eq_some_iff, Option.map_eq_some_iff] at e
    obtain ⟨q, hq, rs', e1, e2⟩ := e
    obtain ⟨it', e', hp, hs⟩ := h.step.2.2 k hq
    rw [← hp] at e1 e2
    simp only [UnaryIter.run, e', Option.bind_some, run_eq ops it' _ rs' hs e1, Option.map_some, e2]

/-- Any sequence of `next()`, `skip(k)` and `skip0(k)` on one unary iterator visits the positions a cursor over the bits visits: ones found by `next` are taken, and
`skip`/`skip0` count the remaining ones / the zeros and taken ones from the cursor on. -/
theorem C06_any_mixture_of_calls {b : BVBuilder} {l : List Bool} (h : BVHistory b l) {pos : Nat} (hpos : pos < l.length)
    {ops : List UnaryIter.Op} {rs : List Nat} (hr : Spec.unaryRun ops l pos = some rs) :
    ∃ it, UnaryIter.new (BitVector.ofBuilder b).bits pos = some it ∧ it.run ops = some rs := by
  have hle := h.le
  obtain ⟨it, e, hw, hp, hat⟩ := UnaryIter.new_at (ws := (ofBuilder b).bits) (pos := pos) (by simp only [ofBuilder]; omega)
  have hf : ∀ i, bitAt it.ws i = l.getD i false := fun i => by rw [hw]; exact h.bitAt i
  refine ⟨it, e, UnaryIter.run_eq ops it l rs ⟨by rw [hw]; simp only [ofBuilder]; omega, fun j hj => ?_, fun i _ => hf i, fun hh => by rw [hf]; exact hh⟩ (by rw [hp]; exact hr)⟩
  rw [hat.buf j hj, hf, hp]

/-- Non-vacuity: 200 bits of which every third is set; a mixture of calls across three words. -/
example : Spec.unaryRun [.next, .skip 0, .next, .skip0 1, .skip0 0, .skip 22, .next, .skip0 3, .next, .skip 30] ((List.range 200).map fun i => decide (i % 3 = 0)) 1 =
    some [3, 6, 6, 7, 7, 75, 75, 79, 81, 174] := by decide +kernel

/-- Non-vacuity: 70 ones starting at position 3. -/
example : ((List.range' 3 (70 - 3)).filter (fun i => (List.replicate 70 true).getD i false))[65]? = some 68 := by
  decide +kernel

/-! ## C07 -/

inductive CodeKind | gamma | gammaNonzero | delta

/-- `write_gamma`, `write_gamma_nonzero` or `write_delta`. -/
def CodeKind.write : CodeKind → BVBuilder → W → Option BVBuilder
  | gamma, b, n => writeGamma b n
  | gammaNonzero, b, n => writeGammaNonzero b n
  | delta, b, n => writeDelta b n

/-- `read_gamma`, `read_gamma_nonzero` or `read_delta`. -/
def CodeKind.read : CodeKind → BitsIter → Option (W × BitsIter)
  | gamma, it => readGamma it
  | gammaNonzero, it => readGammaNonzero it
  | delta, it => readDelta it

/-- The values a code can represent. -/
def CodeKind.Ok : CodeKind → W → Prop
  | gamma, n => n.toNat < 2 ^ 64 - 1
  | gammaNonzero, n => 0 < n.toNat
  | delta, n => n.toNat < 2 ^ 64 - 1

def writeCodes : List (CodeKind × W) → BVBuilder → Option BVBuilder
  | [], b => some b
  | (k, n) :: cs, b => (k.write b n).bind (writeCodes cs)

def readCodes : List CodeKind → BitsIter → Option (List W × BitsIter)
  | [], it => some ([], it)
  | k :: ks, it => do
    let (x, it) ← k.read it
    let (xs, it) ← readCodes ks it
    return (x :: xs, it)

def codeBits : CodeKind → W → List Bool
  | .gamma, n => gammaCode n
  | .gammaNonzero, n => gammaCode (n - 1#64)
  | .delta, n => deltaCode n

theorem ne_allOnes_of_lt {n : W} (h : n.toNat < 2 ^ 64 - 1) : n ≠ BitVec.allOnes 64 := by
  intro e; rw [e, BitVec.toNat_allOnes] at h; omega

theorem sub_one_ne_allOnes {n : W} (h : 0 < n.toNat) : n - 1#64 ≠ BitVec.allOnes 64 := by
  intro e
  have : n = BitVec.allOnes 64 + 1#64 := by rw [← e, BitVec.sub_add_cancel]
  rw [this] at h; revert h; decide

theorem write_spec {k : CodeKind} {n : W} (hok : k.Ok n) {b : BVBuilder} (h : b.WF) :
    ∃ b', k.write b n = some b' ∧ b'.WF ∧ b'.toBools = b.toBools ++ codeBits k n := by
  cases k with
  | gamma => exact writeGamma_spec h (ne_allOnes_of_lt hok)
  | gammaNonzero => exact writeGamma_spec h (sub_one_ne_allOnes hok)
  | delta => exact writeDelta_spec h (ne_allOnes_of_lt hok)

theorem read_spec {k : CodeKind} {n : W} (hok : k.Ok n) {it : BitsIter} (hc : it.Clean)
    (h : HasAt it.ws it.pos (codeBits k n)) :
    ∃ it', k.read it = some (n, it') ∧ it'.ws = it.ws ∧ it'.pos = it.pos + (codeBits k n).length ∧ it'.Clean := by
  cases k with
  | gamma => exact readGamma_spec hc (ne_allOnes_of_lt hok) h
  | gammaNonzero =>
    obtain ⟨it', e, r⟩ := readGamma_spec hc (sub_one_ne_allOnes hok) h
    refine ⟨it', ?_, r⟩
    simp only [CodeKind.read, readGammaNonzero, e, Option.bind_eq_bind, Option.bind_some, Option.pure_def]
    rw [BitVec.sub_add_cancel]
  | delta => exact readDelta_spec hc (ne_allOnes_of_lt hok) h

theorem writeCodes_spec (cs : List (CodeKind × W)) (hok : ∀ c ∈ cs, c.1.Ok c.2) :
    ∀ b : BVBuilder, b.WF → ∃ b', writeCodes cs b = some b' ∧ b'.WF ∧
      b'.toBools = b.toBools ++ (cs.map (fun c => codeBits c.1 c.2)).flatten := by
  induction cs with
  | nil => intro b h; exact ⟨b, rfl, h, by simp⟩
  | cons c cs ih =>
    intro b h
    obtain ⟨b1, e1, w1, t1⟩ := write_spec (hok c (by simp)) h
    obtain ⟨b2, e2, w2, t2⟩ := ih (fun c hc => hok c (by simp [hc])) b1 w1
    refine ⟨b2, ?_, w2, by rw [t2, t1]; simp⟩
    obtain ⟨k, n⟩ := c
    simp only [writeCodes]
    rw [e1, Option.bind_some, e2]

theorem readCodes_spec (cs : List (CodeKind × W)) (hok : ∀ c ∈ cs, c.1.Ok c.2) :
    ∀ it : BitsIter, it.Clean → HasAt it.ws it.pos (cs.map (fun c => codeBits c.1 c.2)).flatten →
    ∃ it', readCodes (cs.map Prod.fst) it = some (cs.map Prod.snd, it') ∧
      it'.pos = it.pos + (cs.map (fun c => codeBits c.1 c.2)).flatten.length := by
  induction cs with
  | nil => intro it _ _; exact ⟨it, rfl, by simp⟩
  | cons c cs ih =>
    intro it hc h
    simp only [List.map_cons, List.flatten_cons] at h
    obtain ⟨ha, hb⟩ := HasAt.append h
    obtain ⟨it1, e1, w1, p1, c1⟩ := read_spec (hok c (by simp)) hc ha
    obtain ⟨it2, e2, p2⟩ := ih (fun c hc => hok c (by simp [hc])) it1 c1 (by rw [w1, p1]; exact hb)
    refine ⟨it2, ?_, by rw [p2, p1]; simp [Nat.add_assoc]⟩
    simp [readCodes, e1, e2]

/-- Any sequence of gamma and delta codes written after any builder history (so at any alignment), and
followed by anything, is read back exactly, and the reader ends at the end of the last code. -/
theorem C07_codes_roundtrip {b : BVBuilder} {l : List Bool} (h : BVHistory b l)
    (cs : List (CodeKind × W)) (hok : ∀ c ∈ cs, c.1.Ok c.2) :
    ∃ b1, writeCodes cs b = some b1 ∧
      ∀ (r : BVBuilder) (m : List Bool), BVHistory r m →
        ∃ b2, b1.append r = some b2 ∧
          ∃ it', readCodes (cs.map Prod.fst) (BitsIter.new (BitVector.ofBuilder b2).bits b.size) =
              some (cs.map Prod.snd, it') ∧ it'.pos = b1.size := by
  obtain ⟨b1, e1, w1, t1⟩ := writeCodes_spec cs hok b h.wf.1
  refine ⟨b1, e1, fun r m hr => ?_⟩
  obtain ⟨b2, e2, w2, t2⟩ := BVBuilder.append_wf w1 hr.wf.1
  refine ⟨b2, e2, ?_⟩
  have hs1 : b1.size = b.size + (cs.map (fun c => codeBits c.1 c.2)).flatten.length := by
    rw [← BVBuilder.length_toBools, t1, List.length_append, BVBuilder.length_toBools]
  have hs2 : b2.size = b1.size + r.size := by
    rw [← BVBuilder.length_toBools, t2, List.length_append, BVBuilder.length_toBools, BVBuilder.length_toBools]
  obtain ⟨it', e', p'⟩ := readCodes_spec cs hok (BitsIter.new (ofBuilder b2).bits b.size) (BitsIter.new_clean _ _)
    (by
      have := w2.le
      refine ⟨by simp only [BitsIter.new, ofBuilder]; omega, fun i hi => ?_⟩
      simp only [BitsIter.new, ofBuilder]
      have hlt : b.size + i < b2.toBools.length := by rw [BVBuilder.length_toBools]; omega
      rw [← BVBuilder.getElem_toBools _ _ hlt]
      have hb := BVBuilder.length_toBools b
      simp only [t2, t1, List.append_assoc]
      rw [List.getElem_append_right (by omega), List.getElem_append_left (by omega), List.getD_eq_getElem?_getD,
        List.getElem?_eq_getElem hi, Option.getD_some]
      congr 1; omega)
  exact ⟨it', e', by rw [p', hs1]; rfl⟩

/-- Non-vacuity: small and huge values are representable. -/
example : ∀ c ∈ [(CodeKind.gamma, 0#64), (CodeKind.delta, 18446744073709551614#64),
    (CodeKind.gammaNonzero, 18446744073709551615#64)], c.1.Ok c.2 := by
  intro c hc
  simp only [List.mem_cons, List.not_mem_nil, or_false] at hc
  rcases hc with rfl | rfl | rfl <;> simp [CodeKind.Ok]

/-- 2^64-1 is not representable: the code shifts by 255 (undefined). -/
theorem C07_max_value_defect (b : BVBuilder) : writeGamma b (BitVec.allOnes 64) = none := by
  unfold writeGamma
  simp only
  rw [if_pos (by decide +kernel)]

/-! ## C08 -/

/-- A history of `set(i, triplet)` calls on a triplets builder. -/
def CTBuilder.setAll : List (Nat × W × W × W) → CTBuilder → Option CTBuilder
  | [], b => some b
  | (i, t) :: ops, b => (b.set i t).bind (CTBuilder.setAll ops)

/-- After any history of in-range sets, `operator[](i)` of the built vector is the triplet last
written at `i` (all zeros if none was). Widths 0..64 are accepted (0 counts as 1), and a triplet
takes exactly the bits of its three widths. -/
theorem C08_triplets_lossless (n w1 w2 w3 : Nat) (h1 : w1 ≤ 64) (h2 : w2 ≤ 64) (h3 : w3 ≤ 64)
    (ops : List (Nat × W × W × W))
    (hops : ∀ o ∈ ops, o.1 < n ∧ o.2.1.toNat < 2 ^ w1 ∧ o.2.2.1.toNat < 2 ^ w2 ∧ o.2.2.2.toNat < 2 ^ w3) :
    ∃ b b', CTBuilder.new n w1 w2 w3 = some b ∧ b.setAll ops = some b' ∧ b'.build.size = n ∧
      b'.build.bits.size = n * (max w1 1 + max w2 1 + max w3 1) ∧
      ∀ i, i < n → b'.build.get i =
        some ((ops.foldl (fun ts o => ts.set o.1 o.2) (List.replicate n (0, 0, 0))).getD i (0, 0, 0)) := by
  obtain ⟨b, e, hh, q1, q2, q3⟩ := CTBuilder.new_holds (n := n) h1 h2 h3
  have hlew : ∀ {w x : Nat}, x < 2 ^ w → x < 2 ^ ctWidth w := by
    intro w x hx
    unfold ctWidth; split
    · subst w; have : x < 1 := hx; omega
    · exact hx
  have key : ∀ (ops : List (Nat × W × W × W)) (b : CTBuilder) (ts : List (W × W × W)), b.Holds ts → ts.length = n →
      b.w1 = ctWidth w1 → b.w2 = ctWidth w2 → b.w3 = ctWidth w3 →
      (∀ o ∈ ops, o.1 < n ∧ o.2.1.toNat < 2 ^ w1 ∧ o.2.2.1.toNat < 2 ^ w2 ∧ o.2.2.2.toNat < 2 ^ w3) →
      ∃ b', b.setAll ops = some b' ∧ b'.Holds (ops.foldl (fun ts o => ts.set o.1 o.2) ts) ∧
        b'.w1 = ctWidth w1 ∧ b'.w2 = ctWidth w2 ∧ b'.w3 = ctWidth w3 := by
    intro ops
    induction ops with
    | nil => intro b ts hh _ e1 e2 e3 _; exact ⟨b, rfl, hh, e1, e2, e3⟩
    | cons o ops ih =>
      intro b ts hh hl e1 e2 e3 ho
      obtain ⟨o1, o2, o3, o4⟩ := ho o (by simp)
      obtain ⟨b1, f1, g1, r1, r2, r3⟩ := CTBuilder.set_holds hh (i := o.1) (t := o.2) (by omega)
        (by rw [e1]; exact hlew o2) (by rw [e2]; exact hlew o3) (by rw [e3]; exact hlew o4)
      obtain ⟨b2, f2, g2⟩ := ih b1 (ts.set o.1 o.2) g1 (by simpa using hl) (by rw [r1, e1]) (by rw [r2, e2])
        (by rw [r3, e3]) (fun o h => ho o (by simp [h]))
      refine ⟨b2, ?_, g2⟩
      obtain ⟨i, t⟩ := o
      simp only [CTBuilder.setAll]; rw [f1, Option.bind_some, f2]
  obtain ⟨b', e', hh', v1, v2, v3⟩ := key ops b _ hh (by simp) q1 q2 q3 hops
  have hct : ∀ w, ctWidth w = max w 1 := by
    intro w; unfold ctWidth; split <;> omega
  have hlen : (ops.foldl (fun ts o => ts.set o.1 o.2) (List.replicate n ((0, 0, 0) : W × W × W))).length = n := by
    have : ∀ (ops : List (Nat × W × W × W)) (ts : List (W × W × W)),
        (ops.foldl (fun ts o => ts.set o.1 o.2) ts).length = ts.length := by
      intro ops; induction ops with
      | nil => intro ts; rfl
      | cons o ops ih => intro ts; rw [List.foldl_cons, ih]; simp
    rw [this]; simp
  refine ⟨b, b', e, e', by simp only [CTBuilder.build]; rw [hh'.size, hlen], ?_, fun i hi => ?_⟩
  · show b'.bits.size = _
    rw [hh'.bsize, hh'.size, hlen, v1, v2, v3, hct, hct, hct]
  rw [CTBuilder.get_spec hh' (by omega), List.getD_eq_getElem?_getD, List.getElem?_eq_getElem (by omega),
    Option.getD_some]

/-- Non-vacuity: two triplets with widths 1, 64 and 7. -/
example : ∀ o ∈ [(1, (1#64, 18446744073709551615#64, 100#64)), (0, (0#64, 5#64, 127#64))],
    o.1 < 2 ∧ o.2.1.toNat < 2 ^ 1 ∧ o.2.2.1.toNat < 2 ^ 64 ∧ o.2.2.2.toNat < 2 ^ 7 := by simp

/-! ## C42 -/

inductive IterOp | getBits (len : Nat) | skipZeros

/-- Run a sequence of reads on a bits_iterator. -/
def BitsIter.run : List IterOp → BitsIter → Option (List Nat × BitsIter)
  | [], it => some ([], it)
  | .getBits len :: ops, it => do
    let (x, it) ← it.getBits len
    let (xs, it) ← BitsIter.run ops it
    return (x.toNat :: xs, it)
  | .skipZeros :: ops, it => do
    let (z, it) ← it.skipZeros
    let (xs, it) ← BitsIter.run ops it
    return (z :: xs, it)

/-- Specification: the same reads on a list of bits; `none` if they run out of the list. -/
def Spec.runReads : List IterOp → List Bool → Option (List Nat × List Bool)
  | [], l => some ([], l)
  | .getBits len :: ops, l =>
    if len ≤ l.length then
      (Spec.runReads ops (l.drop len)).map fun r => (Spec.valOf (l.take len) :: r.1, r.2)
    else none
  | .skipZeros :: ops, l =>
    match l.idxOf? true with
    | none => none
    | some z => (Spec.runReads ops (l.drop (z + 1))).map fun r => (z :: r.1, r.2)

/-- Any mixture of `get_bits(len)`, `len < 64`, and `skip_zeros` reads what a list of bits would give. -/
theorem C42_bits_iterator_mixed_reads {b : BVBuilder} {l : List Bool} (h : BVHistory b l) (pos : Nat)
    (ops : List IterOp) (hops : ∀ len, IterOp.getBits len ∈ ops → len < 64) (xs : List Nat) (rest : List Bool)
    (hr : Spec.runReads ops (l.drop pos) = some (xs, rest)) (hpos : pos ≤ l.length) :
    ∃ it', (BitsIter.new (BitVector.ofBuilder b).bits pos).run ops = some (xs, it') ∧
      it'.pos + rest.length = l.length := by
  have hle := h.le
  have key : ∀ (ops : List IterOp) (it : BitsIter) (xs : List Nat), it.Clean → it.ws = b.bits → it.pos ≤ l.length →
      (∀ len, IterOp.getBits len ∈ ops → len < 64) → Spec.runReads ops (l.drop it.pos) = some (xs, rest) →
      ∃ it', it.run ops = some (xs, it') ∧ it'.pos + rest.length = l.length := by
    intro ops
    induction ops with
    | nil =>
      intro it xs _ _ hp _ hr
      simp only [Spec.runReads, Option.some.injEq, Prod.mk.injEq] at hr
      obtain ⟨rfl, rfl⟩ := hr
      exact ⟨it, rfl, by rw [List.length_drop]; omega⟩
    | cons o ops ih =>
      intro it xs hc hw hp ho hr
      cases o with
      | getBits len =>
        have hlen := ho len (by simp)
        simp only [Spec.runReads] at hr
        split at hr
        case isFalse => exact absurd hr (by simp)
        case isTrue hlt =>
          rw [List.length_drop] at hlt
          obtain ⟨r, hr', e⟩ := Option.map_eq_some_iff.1 hr
          simp only [Prod.mk.injEq] at e
          obtain ⟨e1, e2⟩ := e
          obtain ⟨x, it1, e3, hx, w1, p1, _, cl⟩ := BitsIter.getBits_spec hc.toInv (len := len) (by omega)
            (by rw [hw]; omega)
          obtain ⟨it2, e4, p2⟩ := ih it1 r.1 (cl hc hlen) (by rw [w1, hw]) (by omega) (fun len h => ho len (by simp [h]))
            (by rw [List.drop_drop, ← p1] at hr'; rw [hr', ← e2])
          refine ⟨it2, ?_, p2⟩
          have hxv : x.toNat = Spec.valOf ((l.drop it.pos).take len) := by
            apply Nat.eq_of_testBit_eq
            intro j
            rw [BitVec.testBit_toNat, hx, Spec.testBit_valOf, getD_drop_take, hw, h.bitAt]
          simp only [BitsIter.run, e3, e4, Option.bind_eq_bind, Option.bind_some, Option.pure_def]
          rw [hxv, e1]
      | skipZeros =>
        simp only [Spec.runReads] at hr
        split at hr
        case h_1 => exact absurd hr (by simp)
        case h_2 z hz =>
          obtain ⟨r, hr', e⟩ := Option.map_eq_some_iff.1 hr
          simp only [Prod.mk.injEq] at e
          obtain ⟨e1, e2⟩ := e
          obtain ⟨hzl, hz1, hz0⟩ := List.findIdx?_eq_some_iff_getElem.1 hz
          rw [List.length_drop] at hzl
          have hbit : ∀ i, bitAt it.ws i = l.getD i false := by intro i; rw [hw]; exact h.bitAt i
          have hq : bitAt it.ws (it.pos + z) = true := by
            rw [hbit, List.getD_eq_getElem?_getD, List.getElem?_eq_getElem (by omega), Option.getD_some]
            simpa using hz1
          obtain ⟨it1, e3, w1, p1, c1⟩ := BitsIter.skipZeros_spec hc hq (by omega) (by
            intro i h1 h2
            have := hz0 (i - it.pos) (by omega)
            rw [hbit, List.getD_eq_getElem?_getD, List.getElem?_eq_getElem (by omega), Option.getD_some]
            simp only [List.getElem_drop, show it.pos + (i - it.pos) = i by omega] at this
            simpa using this)
          rw [show it.pos + z - it.pos = z by omega] at e3
          obtain ⟨it2, e4, p2⟩ := ih it1 r.1 c1 (by rw [w1, hw]) (by omega) (fun len h => ho len (by simp [h]))
            (by rw [List.drop_drop, ← Nat.add_assoc, ← p1] at hr'; rw [hr', ← e2])
          refine ⟨it2, ?_, p2⟩
          simp only [BitsIter.run, e3, e4, Option.bind_eq_bind, Option.bind_some, Option.pure_def]
          rw [e1]
  exact key ops (BitsIter.new (ofBuilder b).bits pos) xs (BitsIter.new_clean _ _) rfl hpos hops hr

/-- Non-vacuity of the specification: a mixed read. -/
example : Spec.runReads [.skipZeros, .getBits 2, .skipZeros] [false, true, true, false, false, false, true] =
    some ([1, 1, 2], []) := by decide +kernel

/-- After `get_bits(64)` the stale buffer is not cleared: on the words `[~0, 2]` the code reports 0
zeros before the next one, while there is one. -/
theorem C42_skip_zeros_after_get_bits64_defect :
    ((BitsIter.new [BitVec.allOnes 64, 2#64] 0).run [.getBits 64, .skipZeros]).map Prod.fst =
      some [18446744073709551615, 0] ∧
    Spec.runReads [.getBits 64, .skipZeros] (List.replicate 64 true ++ [false, true]) =
      some ([18446744073709551615, 1], []) := by
  constructor <;> decide +kernel

end Tongrams
