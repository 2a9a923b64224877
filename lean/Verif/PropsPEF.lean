import Verif.UniformPEF

/-!
# C17, C18: the partitioned Elias–Fano sequence
-/

namespace Tongrams
open BitVector
namespace PEF

/-! ## The encoding -/

theorem sub64_eq {a b : Nat} (h : b ≤ a) (ha : a < 2 ^ 64) : sub64 a b = a - b := by
  unfold sub64
  rw [show a + 2 ^ 64 - b = (a - b) + 2 ^ 64 by omega, Nat.add_mod_right]
  exact Nat.mod_eq_of_lt (by omega)

/-- The last value before the partition `p` (the first value, for the first partition). -/
def ub (vals : List Nat) (ps p : Nat) : Nat := vals.getD (min (p * ps) vals.length - 1) 0

/-- The values of the partition `p`, relative to the last value before it. -/
def pvals (vals : List Nat) (ps p : Nat) : List Nat := ((vals.drop (p * ps)).take ps).map (· - ub vals ps p)

theorem length_pvals (vals : List Nat) (ps p : Nat) : (pvals vals ps p).length = min ps (vals.length - p * ps) := by
  simp [pvals]

theorem getD_pvals {vals : List Nat} {ps p k : Nat} (hk : k < (pvals vals ps p).length) :
    (pvals vals ps p).getD k 0 = vals.getD (p * ps + k) 0 - ub vals ps p := by
  have h := hk
  rw [length_pvals] at h
  rw [List.getD_eq_getElem?_getD, List.getD_eq_getElem?_getD, pvals, List.getElem?_map, List.getElem?_take, if_pos (by omega),
    List.getElem?_drop, List.getElem?_eq_getElem (show p * ps + k < vals.length by omega)]
  rfl

theorem ub_le {vals : List Nat} (hs : Spec.Sorted vals) {ps p k : Nat} (hk : p * ps ≤ k) (hn : k < vals.length) :
    ub vals ps p ≤ vals.getD k 0 := by
  unfold ub; exact EF.sorted_getD hs (by omega) hn

theorem le_ub {vals : List Nat} (hs : Spec.Sorted vals) {ps p k : Nat} (hk : k < p * ps) (hn : k < vals.length) :
    vals.getD k 0 ≤ ub vals ps p := by
  unfold ub; exact EF.sorted_getD hs (by omega) (by omega)

theorem ub_mono {vals : List Nat} (hs : Spec.Sorted vals) {ps p q : Nat} (h : p ≤ q) (hn : 0 < vals.length) :
    ub vals ps p ≤ ub vals ps q := by
  unfold ub
  have := Nat.mul_le_mul_right ps h
  exact EF.sorted_getD hs (by omega) (by omega)

theorem ub_mem {vals : List Nat} (hn : 0 < vals.length) (ps p : Nat) : ub vals ps p ∈ vals :=
  EF.getD_mem (by omega)

theorem sorted_pvals {vals : List Nat} (hs : Spec.Sorted vals) (ps p : Nat) : Spec.Sorted (pvals vals ps p) := by
  unfold pvals Spec.Sorted
  rw [List.pairwise_map]
  have h : Spec.Sorted ((vals.drop (p * ps)).take ps) :=
    List.Pairwise.sublist ((List.take_sublist _ _).trans (List.drop_sublist _ _)) hs
  exact h.imp (fun h => by omega)

theorem pvals_le {vals : List Nat} (hs : Spec.Sorted vals) {ps p : Nat} : ∀ v ∈ pvals vals ps p,
    v ≤ ub vals ps (p + 1) - ub vals ps p := by
  intro v hv
  obtain ⟨k, hk, e⟩ := List.getElem_of_mem hv
  have h1 := getD_pvals hk
  rw [List.getD_eq_getElem?_getD, List.getElem?_eq_getElem hk, e] at h1
  rw [length_pvals] at hk
  have := le_ub (ps := ps) (p := p + 1) hs (k := p * ps + k) (by rw [Nat.succ_mul]; omega) (by omega)
  simp only [Option.getD_some] at h1
  omega

/-- Bits used by a partition. -/
def partLen (vals : List Nat) (ps p : Nat) : Nat :=
  ((pvals vals ps p).length + (ub vals ps (p + 1) - ub vals ps p + 1) / 2 ^ CEF.lowerBitsOf (ub vals ps (p + 1) - ub vals ps p + 1) (pvals vals ps p).length + 2) +
    (pvals vals ps p).length * CEF.lowerBitsOf (ub vals ps (p + 1) - ub vals ps p + 1) (pvals vals ps p).length

/-- Bits used by the `k` partitions from partition `p`. -/
def partsLen (vals : List Nat) (ps : Nat) : Nat → Nat → Nat
  | _, 0 => 0
  | p, k + 1 => partLen vals ps p + partsLen vals ps (p + 1) k

/-- The partition `p` is found in `ws` at `off`. -/
def PBits (vals : List Nat) (ps : Nat) (ws : List W) (off p : Nat) : Prop :=
  CEF.Bits ws off
    ((pvals vals ps p).length + (ub vals ps (p + 1) - ub vals ps p + 1) / 2 ^ CEF.lowerBitsOf (ub vals ps (p + 1) - ub vals ps p + 1) (pvals vals ps p).length + 2)
    (CEF.lowerBitsOf (ub vals ps (p + 1) - ub vals ps p + 1) (pvals vals ps p).length) (pvals vals ps p)

theorem lower57 {u n : Nat} (hn : 0 < n) (hu : u ≤ 2 ^ 57) : CEF.lowerBitsOf u n ≤ 57 := by
  obtain ⟨-, -, h⟩ := CEF.lowerBitsOf_facts hn (u := u) (by omega)
  by_cases hc : n < u
  · have h1 := h hc
    have h2 : u / n ≤ u := Nat.div_le_self _ _
    exact (Nat.pow_le_pow_iff_right (by omega : 1 < 2)).1 (by omega : 2 ^ CEF.lowerBitsOf u n ≤ 2 ^ 57)
  · unfold CEF.lowerBitsOf; rw [if_neg (by omega)]; omega

theorem partLen_le {vals : List Nat} {ps p : Nat} (hp : 0 < (pvals vals ps p).length) (hu : ub vals ps (p + 1) < 2 ^ 57) :
    partLen vals ps p ≤ 62 * (pvals vals ps p).length + 0 := by
  unfold partLen
  have h1 := lower57 hp (u := ub vals ps (p + 1) - ub vals ps p + 1) (by omega)
  have h2 := (CEF.lowerBitsOf_facts hp (u := ub vals ps (p + 1) - ub vals ps p + 1) (by omega)).2.1
  generalize (ub vals ps (p + 1) - ub vals ps p + 1) / 2 ^ CEF.lowerBitsOf (ub vals ps (p + 1) - ub vals ps p + 1) (pvals vals ps p).length = z at *
  have h3 := Nat.mul_le_mul_left (pvals vals ps p).length h1
  omega

theorem Bits.congr {ws ws' : List W} {off off' hlen l : Nat} {vs : List Nat}
    (h : ∀ x, x < hlen + vs.length * l → bitAt ws' (off' + x) = bitAt ws (off + x)) (hb : CEF.Bits ws off hlen l vs) :
    CEF.Bits ws' off' hlen l vs := by
  refine ⟨fun x hx => by rw [h x (by omega)]; exact hb.ones x hx, fun k hk j hj => ?_⟩
  have : k * l + l ≤ vs.length * l := by
    have := Nat.mul_le_mul_right l (show k + 1 ≤ vs.length from hk)
    rw [Nat.succ_mul] at this; exact this
  have h2 := h (hlen + (k * l + j)) (by omega)
  rw [show off' + hlen + k * l + j = off' + (hlen + (k * l + j)) by omega, h2,
    show off + (hlen + (k * l + j)) = off + hlen + k * l + j by omega]
  exact hb.lows k hk j hj

theorem PBits.congr {vals : List Nat} {ps p : Nat} {ws ws' : List W} {off off' : Nat}
    (h : ∀ x, x < partLen vals ps p → bitAt ws' (off' + x) = bitAt ws (off + x)) (hb : PBits vals ps ws off p) :
    PBits vals ps ws' off' p := Bits.congr h hb

theorem drop_eq_map {vals : List Nat} (hs : Spec.Sorted vals) (hb : ∀ v ∈ vals, v < 2 ^ 57) (ps p : Nat) :
    ((vals.drop (p * ps)).take ps).map (sub64 · (ub vals ps p)) = pvals vals ps p := by
  unfold pvals
  apply List.map_congr_left
  intro v hv
  have hv' : v ∈ vals := List.mem_of_mem_drop (List.mem_of_mem_take hv)
  obtain ⟨k, hk, e⟩ := List.getElem_of_mem hv
  have hk' := hk
  rw [List.length_take, List.length_drop] at hk'
  rw [List.getElem_take, List.getElem_drop] at e
  have := ub_le hs (ps := ps) (p := p) (k := p * ps + k) (by omega) (by omega)
  rw [List.getD_eq_getElem?_getD, List.getElem?_eq_getElem (by omega), Option.getD_some, e] at this
  have := hb v hv'
  exact sub64_eq (by omega) (by omega)

theorem getLast_part {vals : List Nat} {ps p : Nat} (hps : 0 < ps) (hp : p * ps < vals.length) :
    ((vals.drop (p * ps)).take ps).getLast? = some (ub vals ps (p + 1)) := by
  rw [List.getLast?_eq_getElem?, List.length_take, List.length_drop, List.getElem?_take, if_pos (by omega), List.getElem?_drop]
  unfold ub
  rw [List.getD_eq_getElem?_getD, Nat.succ_mul]
  have h1 : p * ps + (min ps (vals.length - p * ps) - 1) = min (p * ps + ps) vals.length - 1 := by omega
  rw [h1, List.getElem?_eq_getElem (by omega)]
  rfl

theorem writeParts_ok {vals : List Nat} {ps : Nat} (hs : Spec.Sorted vals) (hb : ∀ v ∈ vals, v < 2 ^ 57)
    (hps : 0 < ps) (hps' : ps ≤ 2 ^ 7) : ∀ (k p : Nat) (b : BVBuilder) (ends ups : List Nat), b.WF →
    (∀ q, q < k → (p + q) * ps < vals.length) →
    ∃ b' es, writeParts ps k (vals.drop (p * ps)) (ub vals ps p) b ends ups =
        some (.ok (b', ends ++ es, ups ++ (List.range k).map (fun q => ub vals ps (p + q + 1)))) ∧
      b'.WF ∧ es.length = k ∧ (b.size :: es).getLast? = some b'.size ∧ b.size ≤ b'.size ∧ b'.size + 62 * min (p * ps) vals.length ≤ b.size + 62 * min ((p + k) * ps) vals.length ∧
      b'.size = b.size + partsLen vals ps p k ∧
      (∀ x, x < b.size → bitAt b'.bits x = bitAt b.bits x) ∧
      ∀ q, q < k → (b.size :: es).getD q 0 + partLen vals ps (p + q) ≤ b'.size ∧
        PBits vals ps b'.bits ((b.size :: es).getD q 0) (p + q) := by
  intro k
  induction k with
  | zero =>
    intro p b ends ups hw _
    exact ⟨b, [], by simp [writeParts], hw, rfl, rfl, Nat.le_refl _, by simp, rfl, fun _ _ => rfl, fun q hq => absurd hq (Nat.not_lt_zero _)⟩
  | succ k ih =>
    intro p b ends ups hw hq
    have hp0 := hq 0 (by omega)
    rw [Nat.add_zero] at hp0
    have hlen : 0 < (pvals vals ps p).length := by rw [length_pvals]; omega
    have hlen' : (pvals vals ps p).length ≤ 2 ^ 7 := by rw [length_pvals]; omega
    have hu := hb _ (ub_mem (by omega : 0 < vals.length) ps (p + 1))
    have hmono := ub_mono hs (ps := ps) (show p ≤ p + 1 by omega) (by omega)
    obtain ⟨b1, e1, w1, s1, k1, bi1⟩ := CEF.write_ok hw (u := ub vals ps (p + 1) - ub vals ps p + 1) hlen hlen' (by omega)
      (fun v hv => by have := pvals_le hs v hv; omega) (sorted_pvals hs ps p)
    have hpl := partLen_le (p := p) hlen hu
    have hsz : b1.size = b.size + partLen vals ps p := by rw [s1, partLen, Nat.add_assoc]
    obtain ⟨b', es, e2, w2, l2, g2, z2, m2, x2, k2, q2⟩ := ih (p + 1) b1 (ends ++ [b1.size]) (ups ++ [ub vals ps (p + 1)]) w1
      (fun q h => by have := hq (q + 1) (by omega); rw [show p + 1 + q = p + (q + 1) by omega]; exact this)
    have hlp := length_pvals vals ps p
    refine ⟨b', b1.size :: es, ?_, w2, by simp [l2], ?_, by omega, ?_, by rw [x2, hsz, partsLen, Nat.add_assoc], ?_, ?_⟩
    · rw [writeParts, getLast_part hps hp0, Res.lift_some, Res.bind_ok, drop_eq_map hs hb, sub64_eq hmono (by omega), e1, Res.bind_ok,
        List.drop_drop, show p * ps + ps = (p + 1) * ps by rw [Nat.succ_mul], e2]
      refine congrArg some (congrArg Except.ok ?_)
      rw [Prod.mk.injEq, Prod.mk.injEq]
      refine ⟨rfl, by simp, ?_⟩
      rw [List.range_succ_eq_map, List.map_cons, List.map_map, List.append_assoc]
      refine congrArg (ups ++ ·) ?_
      rw [List.singleton_append]
      refine congrArg₂ List.cons rfl ?_
      apply List.map_congr_left; intro q _; simp only [Function.comp]; rw [show p + 1 + q + 1 = p + (q + 1) + 1 by omega]
    · rw [List.getLast?_cons_cons]; exact g2
    · have h3 : (p + 1 + k) * ps = (p + (k + 1)) * ps := by rw [show p + 1 + k = p + (k + 1) by omega]
      have h4 : (p + 1) * ps = p * ps + ps := by rw [Nat.succ_mul]
      rw [h3, h4] at m2
      have h5 : p * ps + ps ≤ (p + (k + 1)) * ps := by rw [← h4]; exact Nat.mul_le_mul_right _ (by omega)
      omega
    · intro x hx; rw [k2 x (by omega), k1 x hx]
    · intro q hq'
      cases q with
      | zero =>
        refine ⟨by simp only [List.getD_cons_zero, Nat.add_zero]; omega, ?_⟩
        simp only [List.getD_cons_zero, Nat.add_zero]
        refine PBits.congr (ws := b1.bits) (off := b.size) (fun x hx => k2 _ (by omega)) bi1
      | succ q =>
        have := q2 q (by omega)
        rw [List.getD_cons_succ, show p + (q + 1) = p + 1 + q by omega]
        exact this

theorem append_bits {b rhs : BVBuilder} (h : b.WF) (hr : rhs.WF) :
    ∃ b', b.append rhs = some b' ∧ b'.WF ∧ b'.size = b.size + rhs.size ∧
      ∀ i, bitAt b'.bits i = if i < b.size then bitAt b.bits i else bitAt rhs.bits (i - b.size) := by
  obtain ⟨b', e, w, t⟩ := BVBuilder.append_wf h hr
  refine ⟨b', e, w, ?_, fun i => ?_⟩
  · rw [← BVBuilder.length_toBools, t, List.length_append, BVBuilder.length_toBools, BVBuilder.length_toBools]
  · rw [w.bitAt, h.bitAt, hr.bitAt, t, List.getD_eq_getElem?_getD, List.getElem?_append, BVBuilder.length_toBools]
    split <;> rw [List.getD_eq_getElem?_getD]

theorem appendAll_bits {len : Nat} (hlen : len ≤ 64) : ∀ (vs : List Nat) {b : BVBuilder}, b.WF → (∀ v ∈ vs, v < 2 ^ len) →
    ∃ b', appendAll len vs b = some b' ∧ b'.WF ∧ b'.size = b.size + vs.length * len ∧
      (∀ i, i < b.size → bitAt b'.bits i = bitAt b.bits i) ∧
      ∀ k, k < vs.length → ∀ j, j < len → bitAt b'.bits (b.size + k * len + j) = (vs.getD k 0).testBit j := by
  intro vs
  induction vs with
  | nil => intro b hw _; exact ⟨b, rfl, hw, by simp, fun _ _ => rfl, fun k hk => absurd hk (Nat.not_lt_zero _)⟩
  | cons v vs ih =>
    intro b hw hv
    have hv0 := hv v (by simp)
    have h64 : v < 2 ^ 64 := Nat.lt_of_lt_of_le hv0 (Nat.pow_le_pow_right (by omega) hlen)
    obtain ⟨b1, e1, w1, s1, g1⟩ := BVBuilder.appendBits_bits hw (v := BitVec.ofNat 64 v) hlen
      (by rw [BitVec.toNat_ofNat, Nat.mod_eq_of_lt h64]; exact hv0)
    obtain ⟨b2, e2, w2, s2, g2, l2⟩ := ih w1 (fun x hx => hv x (by simp [hx]))
    refine ⟨b2, by rw [appendAll, e1, Option.bind_some, e2], w2, ?_, ?_, ?_⟩
    · rw [s2, s1, List.length_cons, Nat.succ_mul]; omega
    · intro i hi; rw [g2 i (by omega), g1, if_pos hi]
    · intro k hk j hj
      cases k with
      | zero =>
        rw [Nat.zero_mul, Nat.add_zero, g2 _ (by omega), g1, if_neg (by omega), Nat.add_sub_cancel_left, BitVec.getLsbD_ofNat]
        simp [show j < 64 by omega]
      | succ k =>
        have := l2 k (by simpa using hk) j hj
        rw [s1] at this
        rw [Nat.succ_mul, List.getD_cons_succ, ← this]; congr 1; omega

/-- What the reader finds in a sequence of two partitions or more. `so`, `eo`, `eb` are the offset of the
partitions, the offset of their endpoints and the bits of an endpoint; `E p` is the start of partition `p`. -/
structure MHolds (f : PEF) (vals : List Nat) (ps so eo eb : Nat) (E : Nat → Nat) : Prop where
  sorted : Spec.Sorted vals
  bound : ∀ v ∈ vals, v < 2 ^ 57
  n56 : vals.length < 2 ^ 56
  size : f.size = vals.length
  univ : f.univ = vals.getD (vals.length - 1) 0
  hps : 2 ^ f.logPart = ps
  ps0 : 0 < ps
  ps128 : ps ≤ 2 ^ 7
  parts : 1 < f.partitions
  parts_lo : ∀ p, p < f.partitions → p * ps < vals.length
  parts_hi : vals.length ≤ f.partitions * ps
  upSize : f.upper.size = f.partitions + 1
  up : ∀ p, p ≤ f.partitions → ∀ junk : List W, junk ≠ [] → f.upper.access junk p = some (BitVec.ofNat 64 (ub vals ps p))
  ends : ∀ p, 0 < p → p < f.partitions → f.data.getBits (eo + (p - 1) * eb) eb = some (BitVec.ofNat 64 (E p))
  e0 : E 0 = 0
  e64 : ∀ p, p < f.partitions → E p < 2 ^ 64
  ctx : ∀ p, p < f.partitions → CEF.Ctx f.data.bits (so + E p) (so + E p) (ub vals ps (p + 1) - ub vals ps p + 1) (pvals vals ps p)
  gamma : ∃ it, readGamma (BitsIter.new f.data.bits 0) = some (BitVec.ofNat 64 eb, it) ∧ it.pos = eo
  eb64 : eb < 2 ^ 64
  hso : so = eo + eb * (f.partitions - 1)

theorem noBits_wf : noBits.WF := (BVBuilder.new_wf 0 false).1

theorem noInts_resize (n w : Nat) : noInts.resize n w = CVBuilder.new n w := by
  unfold CVBuilder.resize CVBuilder.new noInts
  simp

theorem upper_access {ups : List Nat} {last : Nat} (hl : last < 2 ^ 57) (hu : ∀ v ∈ ups, v ≤ last) :
    ceilLog2 (BitVec.ofNat 64 (last + 1)) ≤ 57 ∧ ∃ cvb cvb', noInts.resize ups.length (ceilLog2 (BitVec.ofNat 64 (last + 1))) = some cvb ∧
      cvb.fill (ups.map (BitVec.ofNat 64)) = some cvb' ∧ (CompactVector.ofBuilder cvb').size = ups.length ∧
      ∀ p (hp : p < ups.length), ∀ junk : List W, junk ≠ [] →
        (CompactVector.ofBuilder cvb').access junk p = some (BitVec.ofNat 64 ups[p]) := by
  have hlg := ceilLog2_spec (BitVec.ofNat 64 (last + 1))
  have ht : (BitVec.ofNat 64 (last + 1)).toNat = last + 1 := by
    rw [BitVec.toNat_ofNat, Nat.mod_eq_of_lt (by omega)]
  rw [ht] at hlg
  have h57 : ceilLog2 (BitVec.ofNat 64 (last + 1)) ≤ 57 := by
    by_cases h : 1 < last + 1
    · have h1 := hlg.2.1 h
      have h2 : 2 ^ (ceilLog2 (BitVec.ofNat 64 (last + 1)) - 1) < 2 ^ 57 := by omega
      have := (Nat.pow_lt_pow_iff_right (by omega : 1 < 2)).1 h2
      omega
    · unfold ceilLog2; rw [ht, if_neg h]; omega
  obtain ⟨b, b', e1, e2, hh, -, hw⟩ := CompactVector.fill_holds (ceilLog2 (BitVec.ofNat 64 (last + 1))) (by omega)
    (ups.map (BitVec.ofNat 64)) (by
      intro v hv
      obtain ⟨x, hx, rfl⟩ := List.mem_map.1 hv
      have := hu x hx
      rw [BitVec.toNat_ofNat, Nat.mod_eq_of_lt (by omega)]; omega)
  rw [List.length_map] at e1
  refine ⟨h57, b, b', by rw [noInts_resize]; exact e1, e2, by rw [hh.size, List.length_map], fun p hp junk hj => ?_⟩
  have hw' : (CompactVector.ofBuilder b').width = max 1 (ceilLog2 (BitVec.ofNat 64 (last + 1))) := hw
  rw [CompactVector.access_eq_get hh.wf (by rw [hh.size, List.length_map]; exact hp) (by rw [hw']; omega) junk hj,
    hh.get (by rw [List.length_map]; exact hp), List.getElem_map]

theorem getBits_val {bv : BitVector} {pos len v : Nat} (h : pos + len ≤ 64 * bv.bits.length) (hlen : len ≤ 64)
    (hv : v < 2 ^ len) (hb : ∀ j, j < len → bitAt bv.bits (pos + j) = v.testBit j) :
    bv.getBits pos len = some (BitVec.ofNat 64 v) := by
  obtain ⟨x, e, g⟩ := getBits_spec (bv := bv) h hlen
  rw [e]
  refine congrArg some ?_
  apply BitVec.eq_of_getLsbD_eq
  intro j hj
  rw [g, BitVec.getLsbD_ofNat]
  by_cases hjl : j < len
  · simp [hjl, hj, hb j hjl]
  · have : v.testBit j = false := Nat.testBit_lt_two_pow (Nat.lt_of_lt_of_le hv (Nat.pow_le_pow_right (by omega) (by omega)))
    simp [hjl, this]

theorem ctx_of_bits {vals : List Nat} {ps p : Nat} {ws : List W} {off : Nat} (hs : Spec.Sorted vals) (hb : ∀ v ∈ vals, v < 2 ^ 57)
    (hps : ps ≤ 2 ^ 7) (hp0 : 0 < ps) (hp : p * ps < vals.length) (h : PBits vals ps ws off p) (hfit : off + partLen vals ps p ≤ 64 * ws.length) :
    CEF.Ctx ws off off (ub vals ps (p + 1) - ub vals ps p + 1) (pvals vals ps p) := by
  have hlen : 0 < (pvals vals ps p).length := by rw [length_pvals]; omega
  have hlen' : (pvals vals ps p).length ≤ 2 ^ 7 := by rw [length_pvals]; omega
  have hu := hb _ (ub_mem (by omega : 0 < vals.length) ps (p + 1))
  have hz := (CEF.lowerBitsOf_facts hlen (u := ub vals ps (p + 1) - ub vals ps p + 1) (by omega)).2.1
  have hle := pvals_le (ps := ps) (p := p) hs
  refine CEF.Ctx.of_small hlen (by omega) ?_ (lower57 hlen (by omega)) h ?_ (sorted_pvals hs ps p) ?_ ?_ (by omega)
  · generalize (ub vals ps (p + 1) - ub vals ps p + 1) / 2 ^ CEF.lowerBitsOf (ub vals ps (p + 1) - ub vals ps p + 1) (pvals vals ps p).length = z at *
    omega
  · unfold partLen at hfit; omega
  · intro v hv; exact Nat.div_le_div_right (by have := hle v hv; omega)
  · intro v hv; have := hle v hv; omega

theorem msb_le_255 (x : W) : msb x ≤ 255 := by
  unfold msb
  split <;> omega

/-- Writing two partitions or more. -/
theorem writeMulti_ok {vals : List Nat} {lg : Nat} (hs : Spec.Sorted vals) (hb : ∀ v ∈ vals, v < 2 ^ 57)
    (hn : vals.length < 2 ^ 56) (hlg : lg ≤ 7) (hp : 1 < ceilDiv vals.length (2 ^ lg)) :
    ∃ r, writeMulti (2 ^ lg) (ceilDiv vals.length (2 ^ lg)) vals = some (.ok r) ∧
      (r.1.WF ∧ (r.1.size < 2 ^ 63 ∧ r.1.size ≤ 64 * (ceilDiv vals.length (2 ^ lg) - 1) + 256 + partsLen vals (2 ^ lg) 0 (ceilDiv vals.length (2 ^ lg))) ∧
        ∃ (ups : List Nat) (w : Nat) (cvb : CVBuilder), (ups.length ≤ vals.length + 1 ∧ ups.length = ceilDiv vals.length (2 ^ lg) + 1 ∧ w ≤ 57) ∧
        CVBuilder.new ups.length w = some cvb ∧ cvb.fill (ups.map (BitVec.ofNat 64)) = some r.2) ∧
      ∀ f : PEF, f.size = vals.length → f.univ = vals.getD (vals.length - 1) 0 → f.partitions = ceilDiv vals.length (2 ^ lg) →
        f.upper = CompactVector.ofBuilder r.2 → f.data = BitVector.ofBuilder r.1 → f.logPart = lg →
        ∃ so eo eb E, MHolds f vals (2 ^ lg) so eo eb E := by
  have hps0 : 0 < 2 ^ lg := Nat.pow_pos (by omega)
  have hps : 2 ^ lg ≤ 2 ^ 7 := Nat.pow_le_pow_right (by omega) hlg
  have hcd := ceilDiv_spec vals.length hps0
  generalize hP : ceilDiv vals.length (2 ^ lg) = P at *
  generalize hlgps : 2 ^ lg = ps at *
  have hn0 : 0 < vals.length := by
    rcases Nat.eq_zero_or_pos vals.length with h | h
    · rw [h] at hP; unfold ceilDiv at hP; rw [Nat.zero_add, Nat.div_eq_of_lt (by omega)] at hP; omega
    · exact h
  have hlo : ∀ p, p < P → p * ps < vals.length := by
    intro p hpP
    have := Nat.mul_le_mul_left ps (show p + 1 ≤ P from hpP)
    rw [Nat.mul_succ] at this
    rw [Nat.mul_comm]; omega
  have hhead : vals.head? = some (ub vals ps 0) := by
    unfold ub
    rw [Nat.zero_mul, Nat.zero_min, Nat.zero_sub, List.getD_eq_getElem?_getD, List.head?_eq_getElem?, List.getElem?_eq_getElem hn0]; rfl
  obtain ⟨b, es, e1, w1, l1, g1, -, m1, x1, -, q1⟩ := writeParts_ok hs hb hps0 hps P 0 noBits [] [ub vals ps 0] noBits_wf
    (fun q hq => by rw [Nat.zero_add]; exact hlo q hq)
  rw [Nat.zero_mul, List.drop_zero, List.nil_append] at e1
  have hnb : noBits.size = 0 := rfl
  rw [hnb] at m1 g1 x1
  have hbs : b.size < 2 ^ 62 := by omega
  have hups : [ub vals ps 0] ++ (List.range P).map (fun q => ub vals ps (0 + q + 1)) = (List.range (P + 1)).map (ub vals ps) := by
    rw [List.range_succ_eq_map, List.map_cons, List.map_map, List.singleton_append]
    refine congrArg₂ List.cons rfl ?_
    apply List.map_congr_left; intro q _; simp
  rw [hups] at e1
  have hlast : ((List.range (P + 1)).map (ub vals ps)).getLast? = some (ub vals ps P) := by
    rw [List.range_succ, List.map_append, List.map_singleton, List.getLast?_append]; simp
  obtain ⟨hw57, cvb, cvb', e2, e3, us, ua⟩ := upper_access (ups := (List.range (P + 1)).map (ub vals ps)) (last := ub vals ps P)
    (hb _ (ub_mem hn0 _ _)) (by
      intro v hv
      obtain ⟨x, hx, rfl⟩ := List.mem_map.1 hv
      exact ub_mono hs (by have := List.mem_range.1 hx; omega) hn0)
  have hsz := ceilLog2_spec (BitVec.ofNat 64 (b.size + 1))
  rw [show (BitVec.ofNat 64 (b.size + 1)).toNat = b.size + 1 by rw [BitVec.toNat_ofNat, Nat.mod_eq_of_lt (by omega)]] at hsz
  generalize heb : ceilLog2 (BitVec.ofNat 64 (b.size + 1)) = eb at *
  have hne : BitVec.ofNat 64 eb ≠ BitVec.allOnes 64 := by
    intro h
    have := congrArg BitVec.toNat h
    rw [BitVec.toNat_ofNat, Nat.mod_eq_of_lt (by omega), BitVec.toNat_allOnes] at this; omega
  obtain ⟨c1, e4, w4, t4⟩ := writeGamma_spec noBits_wf hne
  rw [show noBits.toBools = [] from (BVBuilder.new_wf 0 false).2, List.nil_append] at t4
  have s4 : c1.size = (gammaCode (BitVec.ofNat 64 eb)).length := by rw [← BVBuilder.length_toBools, t4]
  have hesle : ∀ k, k < es.length → es.getD k 0 ≤ b.size := by
    intro k hk
    by_cases hk' : k + 1 < P
    · have := (q1 (k + 1) hk').1
      rw [List.getD_cons_succ] at this; omega
    · have : k = es.length - 1 := by omega
      rw [List.getLast?_cons] at g1
      have h2 : es.getLast? = some b.size := by
        rcases hes : es.getLast? with _ | x
        · rw [List.getLast?_eq_none_iff] at hes; rw [hes] at hk; simp at hk
        · rw [hes] at g1; exact g1
      rw [List.getLast?_eq_getElem?, ← this] at h2
      rw [List.getD_eq_getElem?_getD, h2]; simp
  obtain ⟨c2, e5, w5, s5, k5, g5⟩ := appendAll_bits (len := eb) hsz.2.2 es.dropLast w4 (by
    intro v hv
    obtain ⟨k, hk, e⟩ := List.getElem_of_mem ((List.dropLast_sublist es).subset hv)
    have := hesle k hk
    rw [List.getD_eq_getElem?_getD, List.getElem?_eq_getElem hk, e] at this
    simp only [Option.getD_some] at this; omega)
  obtain ⟨c3, e6, w6, s6, g6⟩ := append_bits w5 w1
  rw [List.length_dropLast, l1] at s5 g5
  have hPn : P ≤ vals.length := by
    have h1 := hlo (P - 1) (by omega)
    have h2 := Nat.le_mul_of_pos_right (P - 1) hps0
    omega
  refine ⟨(c3, cvb'), ?_, ⟨w6, ?_, (List.range (P + 1)).map (ub vals ps), _, cvb,
    ⟨by rw [List.length_map, List.length_range]; omega, by rw [List.length_map, List.length_range], hw57⟩, by rw [← noInts_resize]; exact e2, e3⟩, ?_⟩
  rotate_left
  · have h1 : c1.size ≤ 127 := by
      rw [s4, length_gammaCode]
      have := msb_lt_64 (nn_ne_zero hne)
      omega
    have h2 : (P - 1) * eb ≤ vals.length * 64 := Nat.mul_le_mul (by omega) hsz.2.2
    have h3 : (P - 1) * eb ≤ (P - 1) * 64 := Nat.mul_le_mul_left _ hsz.2.2
    show c3.size < _ ∧ c3.size ≤ _
    rw [Nat.zero_mul, Nat.zero_min] at m1
    exact ⟨by omega, by omega⟩
  rotate_right
  · unfold writeMulti
    rw [hhead, Res.lift_some, Res.bind_ok, e1, Res.bind_ok]
    simp only
    rw [hlast, Res.lift_some, Res.bind_ok, e2, Res.lift_some, Res.bind_ok, e3, Res.lift_some, Res.bind_ok, heb, e4, Res.lift_some,
      Res.bind_ok, e5, Res.lift_some, Res.bind_ok, e6, Res.lift_some, Res.bind_ok]
  · intro f f1 f2 f3 f4 f5 f6
    have hw6 : c3.size ≤ 64 * c3.bits.length := by
      rw [w6.len]; unfold wordsFor; omega
    have hmul : (P - 1) * eb + eb = P * eb := by
      rw [← Nat.succ_mul]; congr 1; omega
    refine ⟨c2.size, c1.size, eb, fun p => (0 :: es).getD p 0, hs, hb, hn, f1, f2, ?_, hps0, hps, by rw [f3]; exact hp, by rw [f3]; exact hlo, ?_, ?_, ?_, ?_, rfl, ?_, ?_, ?_, by omega, ?_⟩
    · rw [f6]; exact hlgps
    · rw [f3, Nat.mul_comm]; exact hcd.1
    · rw [f4, f3, us, List.length_map, List.length_range]
    · intro p hp' junk hj
      rw [f3] at hp'
      rw [f4, ua p (by rw [List.length_map, List.length_range]; omega) junk hj, List.getElem_map, List.getElem_range]
    · intro p h0 hp'
      rw [f3] at hp'
      have h1 : (p - 1) * eb + eb ≤ (P - 1) * eb := by
        rw [← Nat.succ_mul]; exact Nat.mul_le_mul_right _ (by omega)
      obtain ⟨p, rfl⟩ : ∃ q, p = q + 1 := ⟨p - 1, by omega⟩
      rw [Nat.add_sub_cancel] at h1
      simp only [List.getD_cons_succ, Nat.add_sub_cancel]
      rw [f5]
      refine getBits_val ?_ hsz.2.2 ?_ ?_
      · show c1.size + p * eb + eb ≤ 64 * c3.bits.length; omega
      · have := hesle p (by omega); omega
      · intro j hj
        show bitAt c3.bits _ = _
        rw [g6, if_pos (by omega), g5 p (by omega) j hj, List.getD_eq_getElem?_getD, List.getD_eq_getElem?_getD, List.getElem?_dropLast,
          if_pos (by omega)]
    · intro p hp'
      rw [f3] at hp'
      cases p with
      | zero => simp
      | succ p => have := hesle p (by omega); rw [List.getD_cons_succ]; omega
    · intro p hp'
      rw [f3] at hp'
      have := q1 p hp'
      rw [Nat.zero_add, hnb] at this
      rw [f5]
      refine ctx_of_bits hs hb hps hps0 (hlo p hp') (PBits.congr (fun x hx => ?_) this.2) ?_
      · show bitAt c3.bits _ = _
        rw [g6, if_neg (by omega)]; congr 1; omega
      · show _ ≤ 64 * c3.bits.length
        omega
    · have hat : HasAt f.data.bits 0 (gammaCode (BitVec.ofNat 64 eb)) := by
        rw [f5]
        refine ⟨?_, fun i hi => ?_⟩
        · show _ ≤ 64 * c3.bits.length; omega
        · show bitAt c3.bits _ = _
          rw [Nat.zero_add, g6, if_pos (by omega), k5 i (by omega), w4.bitAt, t4]
      obtain ⟨it, e7, -, p7, -⟩ := readGamma_spec (it := BitsIter.new f.data.bits 0) (BitsIter.new_clean _ _) hne hat
      exact ⟨it, e7, by rw [p7, s4]; show 0 + _ = _; rw [Nat.zero_add]⟩
    · rw [f3, s5, Nat.mul_comm]

/-! ## The reader, two partitions or more -/

/-- The state of the enumerator when the current partition is `p`. -/
structure At (f : PEF) (vals : List Nat) (ps so eo eb : Nat) (E : Nat → Nat) (p : Nat) (e : PEnum) : Prop where
  hp : p < f.partitions
  eoff : e.endpointsOff = eo
  ebits : e.endpointBits = eb
  soff : e.seqOff = so
  cp : e.curPartition = p
  cb : e.curBegin = p * ps
  ce : e.curEnd = min vals.length ((p + 1) * ps)
  base : e.curBase = ub vals ps p
  upper : e.curUpper = ub vals ps (p + 1)
  part : CEF.EInv f.data.bits (so + E p) (so + E p) (ub vals ps (p + 1) - ub vals ps p + 1) (pvals vals ps p) e.part

section
variable {f : PEF} {vals : List Nat} {ps so eo eb : Nat} {E : Nat → Nat}

theorem MHolds.n0 (h : MHolds f vals ps so eo eb E) : 0 < vals.length := by
  have := h.parts_lo 0 (by have := h.parts; omega); omega

theorem MHolds.p63 (h : MHolds f vals ps so eo eb E) : f.partitions < 2 ^ 63 := by
  have h1 := h.parts
  have h2 := h.parts_lo (f.partitions - 1) (by omega)
  have h3 := h.n56
  have h4 := Nat.mul_le_mul_left (f.partitions - 1) h.ps0
  omega

theorem MHolds.ub64 (h : MHolds f vals ps so eo eb E) (p : Nat) : ub vals ps p < 2 ^ 57 := h.bound _ (ub_mem h.n0 ps p)

theorem MHolds.switch_spec (h : MHolds f vals ps so eo eb E) {junkU : List W} (hj : junkU ≠ []) {e : PEnum}
    (h1 : e.endpointsOff = eo) (h2 : e.endpointBits = eb) (h3 : e.seqOff = so) {p : Nat} (hp : p < f.partitions) :
    ∃ e', f.switch junkU e p = some e' ∧ At f vals ps so eo eb E p e' ∧ e'.position = e.position ∧
      e'.part.position = (pvals vals ps p).length := by
  have hend : (if p ≠ 0 then (f.data.getBits (e.endpointsOff + (p - 1) * e.endpointBits) e.endpointBits).map BitVec.toNat else some 0) =
      some (E p) := by
    by_cases h0 : p = 0
    · subst h0; simp [h.e0]
    · rw [if_pos h0, h1, h2, h.ends p (by omega) hp, Option.map_some, BitVec.toNat_ofNat, Nat.mod_eq_of_lt (h.e64 p hp)]
  have u1 := h.ub64 (p + 1)
  have u0 := h.ub64 p
  have hm := ub_mono h.sorted (ps := ps) (show p ≤ p + 1 by omega) h.n0
  have t1 : (BitVec.ofNat 64 (ub vals ps (p + 1))).toNat = ub vals ps (p + 1) := by
    rw [BitVec.toNat_ofNat, Nat.mod_eq_of_lt (by omega)]
  have t0 : (BitVec.ofNat 64 (ub vals ps p)).toNat = ub vals ps p := by
    rw [BitVec.toNat_ofNat, Nat.mod_eq_of_lt (by omega)]
  have hlo := h.parts_lo p hp
  have hlen : sub64 (min f.size ((p + 1) * 2 ^ f.logPart)) (p * 2 ^ f.logPart) = (pvals vals ps p).length := by
    have := h.n56
    rw [h.hps, h.size, length_pvals, Nat.succ_mul, sub64_eq (by omega) (by omega)]; omega
  unfold switch
  rw [hend, Option.bind_some, h.up (p + 1) (by omega) _ hj, Option.bind_some, h.up p (by omega) _ hj, Option.bind_some]
  refine ⟨_, rfl, ⟨hp, h1, h2, h3, rfl, ?_, ?_, t0, t1, ?_⟩, rfl, ?_⟩
  · show p * 2 ^ f.logPart = _; rw [h.hps]
  · show min f.size ((p + 1) * 2 ^ f.logPart) = _; rw [h.hps, h.size]
  · show CEF.EInv _ _ _ _ _ (CEF.Enum.new _ _ _)
    rw [hlen, h3, t1, t0, sub64_eq hm (by omega), Nat.mod_eq_of_lt (by omega)]
    exact CEF.new_inv _ _ _ _ _
  · exact hlen

theorem At.len_pos (h : MHolds f vals ps so eo eb E) {p : Nat} (hp : p < f.partitions) :
    0 < (pvals vals ps p).length ∧ p * ps + (pvals vals ps p).length = min vals.length ((p + 1) * ps) := by
  have := h.parts_lo p hp
  have := h.ps0
  rw [length_pvals, Nat.succ_mul]; omega

theorem pvals_back (h : MHolds f vals ps so eo eb E) {p k : Nat} (hk : k < (pvals vals ps p).length) :
    ub vals ps p + (pvals vals ps p).getD k 0 = vals.getD (p * ps + k) 0 := by
  rw [getD_pvals hk]
  rw [length_pvals] at hk
  have := ub_le h.sorted (ps := ps) (p := p) (k := p * ps + k) (by omega) (by omega)
  omega

theorem At.partMove (h : MHolds f vals ps so eo eb E) {junkD : List W} (hj : junkD ≠ []) {p : Nat} {e : PEnum}
    (a : At f vals ps so eo eb E p e) {i : Nat} (hi : i ≤ (pvals vals ps p).length) :
    ∃ v e', f.partMove junkD e i = some (v, e') ∧ At f vals ps so eo eb E p e' ∧ e'.position = e.position ∧ e'.part.position = i ∧
      (i < (pvals vals ps p).length → v = vals.getD (p * ps + i) 0) := by
  obtain ⟨c, e1, i1, p1⟩ := (h.ctx p a.hp).move_spec hj a.part hi
  unfold PEF.partMove
  rw [e1, Option.map_some]
  refine ⟨_, _, rfl, ⟨a.hp, a.eoff, a.ebits, a.soff, a.cp, a.cb, a.ce, a.base, a.upper, i1⟩, rfl, p1, fun hlt => ?_⟩
  have := i1.value
  rw [p1, if_pos hlt] at this
  rw [a.base, this, pvals_back h hlt]

/-- `operator[]`, from any state. -/
theorem At.move (h : MHolds f vals ps so eo eb E) {junkU junkD : List W} (hu : junkU ≠ []) (hj : junkD ≠ []) {p : Nat} {e : PEnum}
    (a : At f vals ps so eo eb E p e) {i : Nat} (hi : i ≤ vals.length) :
    ∃ v e' q, f.move junkU junkD e i = some (v, e') ∧ At f vals ps so eo eb E q e' ∧ e'.position = i ∧
      v = (if i < vals.length then vals.getD i 0 else vals.getD (vals.length - 1) 0) ∧
      (i < vals.length → q = i / ps ∧ e'.part.position = i - q * ps) := by
  have hps0 := h.ps0
  unfold PEF.move
  by_cases hc : i ≥ e.curBegin ∧ i < e.curEnd
  · rw [if_pos hc]
    have hc1 := hc.1
    have hc2 := hc.2
    rw [a.cb] at hc1
    rw [a.ce] at hc2
    have hlen := At.len_pos h a.hp
    obtain ⟨v, e', e1, a1, p1, q1, v1⟩ := At.partMove h hj (e := { e with position := i }) (i := i - p * ps)
      ⟨a.hp, a.eoff, a.ebits, a.soff, a.cp, a.cb, a.ce, a.base, a.upper, a.part⟩ (by omega)
    have hq : p = i / ps := by
      symm; apply Nat.div_eq_of_lt_le
      · omega
      · have := hc2; omega
    refine ⟨v, e', p, by rw [show i - e.curBegin = i - p * ps by rw [a.cb]]; exact e1, a1, p1, ?_, fun _ => ⟨hq, q1⟩⟩
    rw [if_pos (by omega), v1 (by omega)]; congr 1; omega
  · rw [if_neg hc]
    unfold PEF.slowMove
    by_cases hend : i = vals.length
    · subst hend
      rw [if_pos h.size.symm, if_pos h.parts]
      obtain ⟨e1, s1, a1, p1, -⟩ := h.switch_spec hu (e := { e with position := vals.length }) a.eoff a.ebits a.soff
        (p := f.partitions - 1) (by have := h.parts; omega)
      rw [s1, Option.bind_some]
      have hn : e1.part.of.n = (pvals vals ps (f.partitions - 1)).length := by rw [a1.part.of]; rfl
      rw [hn]
      obtain ⟨v, e', e2, a2, p2, -, -⟩ := At.partMove h hj a1 (Nat.le_refl _)
      rw [e2, Option.map_some]
      refine ⟨_, _, _, rfl, a2, by rw [p2, p1], ?_, fun hlt => absurd hlt (Nat.lt_irrefl _)⟩
      rw [if_neg (Nat.lt_irrefl _), h.univ]
    · rw [if_neg (by rw [h.size]; exact hend)]
      have hlt : i < vals.length := by omega
      have hq : i / ps < f.partitions := by
        rw [Nat.div_lt_iff_lt_mul hps0]; have := h.parts_hi; omega
      obtain ⟨e1, s1, a1, p1, -⟩ := h.switch_spec hu (e := { e with position := i }) a.eoff a.ebits a.soff hq
      simp only [h.hps]
      rw [s1, Option.bind_some]
      have hdm := Nat.div_add_mod i ps
      have hmod := Nat.mod_lt i hps0
      rw [Nat.mul_comm] at hdm
      have hlen := At.len_pos h hq
      rw [Nat.succ_mul] at hlen
      obtain ⟨v, e', e2, a2, p2, q2, v2⟩ := At.partMove h hj a1 (i := i - i / ps * ps) (by omega)
      rw [p1, a1.cb]
      refine ⟨v, e', _, e2, a2, by rw [p2, p1], ?_, fun _ => ⟨rfl, q2⟩⟩
      rw [if_pos hlt, v2 (by omega)]; congr 1; omega

/-- The reader after `init`. -/
theorem MHolds.init (h : MHolds f vals ps so eo eb E) {junkU junkD : List W} (hu : junkU ≠ []) (hj : junkD ≠ []) :
    ∃ e, f.init junkU junkD = some e ∧ At f vals ps so eo eb E 0 e := by
  obtain ⟨it, e1, p1⟩ := h.gamma
  have hP := h.parts
  unfold PEF.init
  rw [if_neg (by omega), e1, Option.bind_some]
  simp only
  have ht : (BitVec.ofNat 64 eb).toNat = eb := by rw [BitVec.toNat_ofNat, Nat.mod_eq_of_lt h.eb64]
  rw [ht, p1]
  unfold PEF.slowMove
  have hn := h.n0
  rw [if_neg (by rw [h.size]; show ¬ 0 = vals.length; omega)]
  obtain ⟨e2, s2, a2, q2, -⟩ := h.switch_spec hu (e :=
      { endpointsOff := eo, endpointBits := eb, seqOff := eo + eb * (f.partitions - 1), position := 0
        curPartition := 0, curBegin := 0, curEnd := 0, curBase := 0, curUpper := 0, part := CEF.Enum.new 0 0 0 })
      rfl rfl h.hso.symm (p := 0) (by omega)
  simp only [Nat.zero_div]
  rw [s2, Option.bind_some]
  obtain ⟨v, e', e3, a3, -, -, -⟩ := At.partMove h hj a2 (i := e2.position - e2.curBegin) (by rw [q2]; show 0 - _ ≤ _; omega)
  rw [e3, Option.map_some]
  exact ⟨e', rfl, a3⟩

/-- `next_geq` when the bound falls in the current partition. -/
theorem At.nextGeq_in (h : MHolds f vals ps so eo eb E) {junkU junkD : List W} (hj : junkD ≠ []) {p : Nat} {e : PEnum}
    (a : At f vals ps so eo eb E p e) {lb pe fuel : Nat} (h1 : ub vals ps p ≤ lb) (h2 : lb ≤ ub vals ps (p + 1)) :
    ∃ e', f.nextGeq junkU junkD lb pe (fuel + 1) e = some (vals.getD e'.position 0, e') ∧ At f vals ps so eo eb E p e' ∧
      p * ps ≤ e'.position ∧ e'.position < vals.length ∧ lb ≤ vals.getD e'.position 0 ∧
      ((∀ k, p * ps ≤ k → k < e'.position → vals.getD k 0 < lb) ∨
        (e.part.position < (pvals vals ps p).length ∧ e'.position = p * ps + e.part.position ∧ vals.getD e'.position 0 = lb)) := by
  have hlen := At.len_pos h a.hp
  have hlo := h.parts_lo p a.hp
  have hps0 := h.ps0
  rw [Nat.succ_mul] at hlen
  have hlast : (pvals vals ps p).getD ((pvals vals ps p).length - 1) 0 = ub vals ps (p + 1) - ub vals ps p := by
    have := pvals_back h (p := p) (k := (pvals vals ps p).length - 1) (by omega)
    have h3 : vals.getD (p * ps + ((pvals vals ps p).length - 1)) 0 = ub vals ps (p + 1) := by
      unfold ub; congr 1; rw [Nat.succ_mul]; omega
    omega
  obtain ⟨m, hm1, hm⟩ := Spec.FirstGeq.exists (vs := pvals vals ps p) (lb := lb - ub vals ps p)
    (k := (pvals vals ps p).length - 1) (by omega) (by rw [hlast]; omega)
  obtain ⟨c, e1, i1, r1⟩ := (h.ctx p a.hp).nextGeq_spec hj (fun v hv => by have := pvals_le h.sorted v hv; omega) a.part hm
  have hcond : lb ≥ e.curBase ∧ lb ≤ e.curUpper := by rw [a.base, a.upper]; exact ⟨h1, h2⟩
  rw [PEF.nextGeq, if_pos hcond, a.base, e1, Option.map_some]
  have hc : c.position < (pvals vals ps p).length := by
    rcases r1 with r | ⟨r, h3, -⟩
    · have := hm.1; omega
    · rw [r]; exact h3
  have hval := i1.value
  rw [if_pos hc] at hval
  have hback := pvals_back h hc
  have hge : lb - ub vals ps p ≤ (pvals vals ps p).getD c.position 0 := by
    rcases r1 with r | ⟨r, -, h4⟩
    · rw [r]; exact hm.2.1
    · rw [r, h4]; exact Nat.le_refl _
  refine ⟨{ e with part := c, position := e.curBegin + c.position }, ?_, ?_, ?_, ?_, ?_, ?_⟩
  · refine congrArg some (Prod.ext ?_ ?_)
    · show ub vals ps p + c.value = vals.getD (e.curBegin + c.position) 0
      rw [hval, hback, a.cb]
    · simp [a.base]
  · exact ⟨a.hp, a.eoff, a.ebits, a.soff, a.cp, a.cb, a.ce, a.base, a.upper, i1⟩
  · show p * ps ≤ e.curBegin + c.position; rw [a.cb]; omega
  · show e.curBegin + c.position < _; rw [a.cb]; omega
  · show _ ≤ vals.getD (e.curBegin + c.position) 0
    rw [a.cb, ← hback]; omega
  · show (∀ k, _ → k < e.curBegin + c.position → _) ∨ (_ ∧ e.curBegin + c.position = _ ∧ vals.getD (e.curBegin + c.position) 0 = _)
    rw [a.cb]
    rcases r1 with r | ⟨r, h3, h4⟩
    · left
      intro k hk1 hk2
      have h5 := hm.2.2 (k - p * ps) (by omega)
      have h6 := pvals_back h (p := p) (k := k - p * ps) (by omega)
      rw [show p * ps + (k - p * ps) = k by omega] at h6
      omega
    · right
      refine ⟨h3, by rw [r], ?_⟩
      rw [← hback, r, h4]; omega

/-! ### The search of the partition -/

theorem scan_spec {acc : Nat → Option Nat} {lb : Nat} {U : Nat → Nat} : ∀ (fuel lo : Nat),
    (∀ j, lo ≤ j → j < lo + fuel → acc j = some (U j)) →
    ∃ r, scan acc lb fuel lo = some r ∧ lo ≤ r ∧ r ≤ lo + fuel ∧ (∀ j, lo ≤ j → j < r → U j < lb) ∧ (r < lo + fuel → lb ≤ U r) := by
  intro fuel
  induction fuel with
  | zero => intro lo _; exact ⟨lo, rfl, Nat.le_refl _, Nat.le_refl _, fun j h1 h2 => by omega, fun h => by omega⟩
  | succ fuel ih =>
    intro lo ha
    rw [scan, ha lo (Nat.le_refl _) (by omega), Option.bind_some]
    by_cases hc : U lo ≥ lb
    · rw [if_pos hc]; exact ⟨lo, rfl, Nat.le_refl _, by omega, fun j h1 h2 => by omega, fun _ => hc⟩
    · rw [if_neg hc]
      obtain ⟨r, e, h1, h2, h3, h4⟩ := ih (lo + 1) (fun j h1 h2 => ha j (by omega) (by omega))
      refine ⟨r, e, by omega, by omega, fun j g1 g2 => ?_, fun g => h4 (by omega)⟩
      rcases Nat.eq_or_lt_of_le g1 with g | g
      · subst g; omega
      · exact h3 j g g2

/-- `scan` stops at the first sufficient bound, whatever follows. -/
theorem scan_found {acc : Nat → Option Nat} {lb t v : Nat} (ht : acc t = some v) (hv : lb ≤ v) : ∀ (fuel lo : Nat),
    lo ≤ t → t < lo + fuel → (∀ j, lo ≤ j → j < t → ∃ x, acc j = some x ∧ x < lb) → scan acc lb fuel lo = some t := by
  intro fuel
  induction fuel with
  | zero => intro lo h1 h2; omega
  | succ fuel ih =>
    intro lo h1 h2 ha
    rcases Nat.eq_or_lt_of_le h1 with g | g
    · subst g; rw [scan, ht, Option.bind_some, if_pos hv]
    · obtain ⟨x, e, hx⟩ := ha lo (Nat.le_refl _) g
      rw [scan, e, Option.bind_some, if_neg (by omega)]
      exact ih (lo + 1) g (by omega) (fun j h3 h4 => ha j (by omega) h4)

theorem bsearchLoop_found {acc : Nat → Option Nat} {lb last t v : Nat} (ht : acc t = some v) (hv : lb ≤ v) :
    ∀ (fuel pid lo hi : Nat), lo ≤ t → t ≤ hi → hi - lo < fuel → 8 < hi - lo → 0 < lo → hi < 2 ^ 64 →
    (∀ j, lo ≤ j → j < t → ∃ x, acc j = some x ∧ x < lb) → (∀ j, t < j → j < hi → ∃ x, acc j = some x ∧ lb < x) →
    bsearchLoop acc lb last fuel pid lo hi = some t := by
  intro fuel
  induction fuel with
  | zero => intro pid lo hi h1 h2 h3; omega
  | succ fuel ih =>
    intro pid lo hi h1 h2 h3 h4 h0 h64 hl hr
    rw [bsearchLoop, if_pos (by omega)]
    generalize hm : (lo + hi) / 2 = mid
    have hm1 : lo + 4 ≤ mid := by omega
    have hm2 : mid + 4 ≤ hi := by omega
    have hfound : ∀ lo' hi', lo ≤ lo' → hi' ≤ hi → lo' ≤ t → t ≤ hi' → sub64 hi' lo' ≤ 8 → scan acc lb (hi' + 1 - lo') lo' = some t := by
      intro lo' hi' g1 g2 g3 g4 _
      exact scan_found ht hv _ _ g3 (by omega) (fun j k1 k2 => hl j (by omega) k2)
    rcases Nat.lt_trichotomy mid t with hlt | heq | hgt
    · obtain ⟨x, ex, hx⟩ := hl mid (by omega) hlt
      rw [ex, Option.bind_some, if_neg (by omega), if_pos hx]
      simp only
      have : ∃ y, (if mid + 1 ≠ last then acc (mid + 1) else acc last) = some y := by
        have hacc : ∃ y, acc (mid + 1) = some y := by
          rcases Nat.lt_trichotomy (mid + 1) t with g | g | g
          · obtain ⟨y, ey, -⟩ := hl (mid + 1) (by omega) g; exact ⟨y, ey⟩
          · exact ⟨v, by rw [g]; exact ht⟩
          · omega
        by_cases hla : mid + 1 = last
        · rw [if_neg (by simpa using hla), ← hla]; exact hacc
        · rw [if_pos hla]; exact hacc
      obtain ⟨y, ey⟩ := this
      rw [ey, Option.bind_some]
      by_cases hs : sub64 hi (mid + 1) ≤ 8
      · rw [if_pos hs]; exact hfound _ _ (by omega) (Nat.le_refl _) (by omega) h2 hs
      · rw [if_neg hs]
        rw [sub64_eq (by omega) h64] at hs
        exact ih _ _ _ (by omega) h2 (by omega) (by omega) (by omega) h64 (fun j g1 g2 => hl j (by omega) g2) hr
    · subst heq
      rw [ht, Option.bind_some]
      by_cases hc : v > lb
      · rw [if_pos hc]
        simp only
        obtain ⟨x, ex, hx⟩ := hl (mid - 1) (by omega) (by omega)
        rw [if_pos (by omega), ex, Option.bind_some, if_pos (by omega)]
      · rw [if_neg hc, if_neg (by omega)]
    · obtain ⟨x, ex, hx⟩ := hr mid hgt (by omega)
      rw [ex, Option.bind_some, if_pos hx]
      simp only
      rw [if_pos (by omega)]
      have : ∃ y, acc (mid - 1) = some y ∧ lb ≤ y := by
        rcases Nat.eq_or_lt_of_le (show t ≤ mid - 1 by omega) with g | g
        · exact ⟨v, by rw [← g]; exact ht, hv⟩
        · obtain ⟨y, ey, hy⟩ := hr (mid - 1) g (by omega); exact ⟨y, ey, by omega⟩
      obtain ⟨y, ey, hy⟩ := this
      rw [ey, Option.bind_some, if_neg (by omega)]
      by_cases hs : sub64 (mid - 1) lo ≤ 8
      · rw [if_pos hs]; exact hfound _ _ (Nat.le_refl _) (by omega) h1 (by omega) hs
      · rw [if_neg hs]
        rw [sub64_eq (by omega) (by omega)] at hs
        exact ih _ _ _ h1 (by omega) (by omega) (by omega) h0 (by omega) hl (fun j g1 g2 => hr j g1 (by omega))

/-- The search finds the partition of a present value. -/
theorem bsearch_found {acc : Nat → Option Nat} {lb last t v lo hi : Nat} (ht : acc t = some v) (hv : lb ≤ v) (h1 : lo ≤ t)
    (h2 : t ≤ hi) (h0 : 0 < lo) (h64 : hi < 2 ^ 64) (hl : ∀ j, lo ≤ j → j < t → ∃ x, acc j = some x ∧ x < lb)
    (hr : ∀ j, t < j → j < hi → ∃ x, acc j = some x ∧ lb < x) : bsearch acc lb last lo hi = some t := by
  unfold bsearch
  by_cases hs : sub64 hi lo ≤ 8
  · rw [if_pos hs]; exact scan_found ht hv _ _ h1 (by omega) hl
  · rw [if_neg hs]
    rw [sub64_eq (by omega) h64] at hs
    exact bsearchLoop_found ht hv _ _ _ _ h1 h2 (by omega) (by omega) h0 h64 hl hr

/-- What the search of the partition returns in general. -/
theorem bsearchLoop_spec {acc : Nat → Option Nat} {lb last : Nat} {U : Nat → Nat} (mono : ∀ i j, i ≤ j → U i ≤ U j) :
    ∀ (fuel pid lo hi : Nat), hi - lo < fuel → 8 < hi - lo → 0 < lo → hi < 2 ^ 64 → (∀ j, lo ≤ j → j ≤ hi → acc j = some (U j)) →
    ∃ r, bsearchLoop acc lb last fuel pid lo hi = some r ∧ lo ≤ r ∧
      ((r = hi + 1 ∧ U hi < lb) ∨ (r ≤ hi ∧ lb ≤ U r ∧ (r = lo ∨ U (r - 1) ≤ lb))) := by
  intro fuel
  induction fuel with
  | zero => intro pid lo hi h3; omega
  | succ fuel ih =>
    intro pid lo hi h3 h4 h0 h64 ha
    rw [bsearchLoop, if_pos (by omega)]
    generalize hm : (lo + hi) / 2 = mid
    have hm1 : lo + 4 ≤ mid := by omega
    have hm2 : mid + 4 ≤ hi := by omega
    have hscan : ∀ lo' hi', lo ≤ lo' → hi' ≤ hi → lo' ≤ hi' → ∃ r, scan acc lb (hi' + 1 - lo') lo' = some r ∧ lo' ≤ r ∧
        ((r = hi' + 1 ∧ U hi' < lb) ∨ (r ≤ hi' ∧ lb ≤ U r ∧ (r = lo' ∨ U (r - 1) ≤ lb))) := by
      intro lo' hi' g1 g2 g3
      obtain ⟨r, e, k1, k2, k3, k4⟩ := scan_spec (lb := lb) (U := U) (hi' + 1 - lo') lo' (fun j _ _ => ha j (by omega) (by omega))
      refine ⟨r, e, k1, ?_⟩
      by_cases hr : r = hi' + 1
      · left; exact ⟨hr, k3 hi' g3 (by omega)⟩
      · right
        refine ⟨by omega, k4 (by omega), ?_⟩
        by_cases hr' : r = lo'
        · left; exact hr'
        · right; exact Nat.le_of_lt (k3 (r - 1) (by omega) (by omega))
    rw [ha mid (by omega) (by omega), Option.bind_some]
    by_cases hc : U mid > lb
    · rw [if_pos hc]
      simp only
      rw [if_pos (by omega), ha (mid - 1) (by omega) (by omega), Option.bind_some]
      by_cases hc2 : lb > U (mid - 1)
      · rw [if_pos hc2]; exact ⟨mid, rfl, by omega, Or.inr ⟨by omega, by omega, Or.inr (by omega)⟩⟩
      · rw [if_neg hc2]
        have hfin : ∀ r, lo ≤ r → ((r = mid - 1 + 1 ∧ U (mid - 1) < lb) ∨ (r ≤ mid - 1 ∧ lb ≤ U r ∧ (r = lo ∨ U (r - 1) ≤ lb))) →
            lo ≤ r ∧ ((r = hi + 1 ∧ U hi < lb) ∨ (r ≤ hi ∧ lb ≤ U r ∧ (r = lo ∨ U (r - 1) ≤ lb))) := by
          intro r g1 g2
          refine ⟨g1, ?_⟩
          rcases g2 with ⟨g2, g3⟩ | ⟨g2, g3, g4⟩
          · omega
          · right; exact ⟨by omega, g3, g4⟩
        by_cases hs : sub64 (mid - 1) lo ≤ 8
        · rw [if_pos hs]
          obtain ⟨r, e, g1, g2⟩ := hscan lo (mid - 1) (Nat.le_refl _) (by omega) (by omega)
          exact ⟨r, e, hfin r g1 g2⟩
        · rw [if_neg hs]
          rw [sub64_eq (by omega) (by omega)] at hs
          obtain ⟨r, e, g1, g2⟩ := ih pid lo (mid - 1) (by omega) (by omega) h0 (by omega) (fun j _ _ => ha j (by omega) (by omega))
          exact ⟨r, e, hfin r g1 g2⟩
    · rw [if_neg hc]
      by_cases hc2 : U mid < lb
      · rw [if_pos hc2]
        simp only
        have hy : (if mid + 1 ≠ last then acc (mid + 1) else acc last) = some (U (mid + 1)) := by
          by_cases hla : mid + 1 = last
          · rw [if_neg (by simpa using hla), ← hla]; exact ha _ (by omega) (by omega)
          · rw [if_pos hla]; exact ha _ (by omega) (by omega)
        rw [hy, Option.bind_some]
        have hfin : ∀ r, mid + 1 ≤ r → ((r = hi + 1 ∧ U hi < lb) ∨ (r ≤ hi ∧ lb ≤ U r ∧ (r = mid + 1 ∨ U (r - 1) ≤ lb))) →
            lo ≤ r ∧ ((r = hi + 1 ∧ U hi < lb) ∨ (r ≤ hi ∧ lb ≤ U r ∧ (r = lo ∨ U (r - 1) ≤ lb))) := by
          intro r g1 g2
          refine ⟨by omega, ?_⟩
          rcases g2 with g2 | ⟨g2, g3, g4⟩
          · left; exact g2
          · right
            refine ⟨g2, g3, Or.inr ?_⟩
            rcases g4 with g4 | g4
            · subst g4; rw [Nat.add_sub_cancel]; omega
            · exact g4
        by_cases hs : sub64 hi (mid + 1) ≤ 8
        · rw [if_pos hs]
          obtain ⟨r, e, g1, g2⟩ := hscan (mid + 1) hi (by omega) (Nat.le_refl _) (by omega)
          exact ⟨r, e, hfin r g1 g2⟩
        · rw [if_neg hs]
          rw [sub64_eq (by omega) h64] at hs
          obtain ⟨r, e, g1, g2⟩ := ih (if lb < U (mid + 1) then mid + 1 else pid) (mid + 1) hi (by omega) (by omega) (by omega) h64 (fun j _ _ => ha j (by omega) (by omega))
          exact ⟨r, e, hfin r g1 g2⟩
      · rw [if_neg hc2]
        refine ⟨mid, rfl, by omega, Or.inr ⟨by omega, by omega, Or.inr ?_⟩⟩
        have := mono (mid - 1) mid (by omega); omega

theorem bsearch_spec {acc : Nat → Option Nat} {lb last : Nat} {U : Nat → Nat} (mono : ∀ i j, i ≤ j → U i ≤ U j) {lo hi : Nat}
    (hle : lo ≤ hi) (h0 : 0 < lo) (h64 : hi < 2 ^ 64) (ha : ∀ j, lo ≤ j → j ≤ hi → acc j = some (U j)) :
    ∃ r, bsearch acc lb last lo hi = some r ∧ lo ≤ r ∧
      ((r = hi + 1 ∧ U hi < lb) ∨ (r ≤ hi ∧ lb ≤ U r ∧ (r = lo ∨ U (r - 1) ≤ lb))) := by
  unfold bsearch
  by_cases hs : sub64 hi lo ≤ 8
  · rw [if_pos hs]
    obtain ⟨r, e, k1, k2, k3, k4⟩ := scan_spec (lb := lb) (U := U) (hi + 1 - lo) lo (fun j _ _ => ha j (by omega) (by omega))
    refine ⟨r, e, k1, ?_⟩
    by_cases hr : r = hi + 1
    · left; exact ⟨hr, k3 hi hle (by omega)⟩
    · right
      refine ⟨by omega, k4 (by omega), ?_⟩
      by_cases hr' : r = lo
      · left; exact hr'
      · right; exact Nat.le_of_lt (k3 (r - 1) (by omega) (by omega))
  · rw [if_neg hs]
    rw [sub64_eq hle h64] at hs
    exact bsearchLoop_spec mono _ _ _ _ (by omega) (by omega) h0 h64 ha

/-! ### `next_geq` and `find` -/

theorem MHolds.acc (h : MHolds f vals ps so eo eb E) {junkU : List W} (hu : junkU ≠ []) {j : Nat} (hj : j ≤ f.partitions) :
    (f.upper.access junkU j).map BitVec.toNat = some (ub vals ps j) := by
  have := h.ub64 j
  rw [h.up j hj _ hu, Option.map_some, BitVec.toNat_ofNat, Nat.mod_eq_of_lt (by omega)]

theorem At.nextGeq_first (h : MHolds f vals ps so eo eb E) {junkU junkD : List W} (hu : junkU ≠ []) (hj : junkD ≠ []) {p : Nat} {e : PEnum}
    (a : At f vals ps so eo eb E p e) {lb pe fuel k : Nat} (hk : k < vals.length) (hkv : lb ≤ vals.getD k 0) (hpk : p * ps ≤ k)
    (hke : k < (pe + 1) * ps) (hpe : pe * ps ≤ vals.length)
    (hfirst : ∀ j, j < k → vals.getD j 0 < lb) (hafter : ∀ j, k < j → j < pe * ps → lb < vals.getD j 0)
    (hpart : e.part.position < (pvals vals ps p).length → p * ps + e.part.position ≤ k) (hbase : ub vals ps p ≤ lb) :
    ∃ e', f.nextGeq junkU junkD lb pe (fuel + 2) e = some (vals.getD k 0, e') ∧ At f vals ps so eo eb E (k / ps) e' ∧ e'.position = k := by
  have hps0 := h.ps0
  have hdm := Nat.div_add_mod k ps
  have hmod := Nat.mod_lt k hps0
  rw [Nat.mul_comm] at hdm
  have hpq : p ≤ k / ps := (Nat.le_div_iff_mul_le hps0).2 hpk
  have hq : k / ps < f.partitions := by
    rw [Nat.div_lt_iff_lt_mul hps0]; have := h.parts_hi; omega
  have hqe : k / ps ≤ pe := by
    have : k / ps < pe + 1 := (Nat.div_lt_iff_lt_mul hps0).2 hke
    omega
  have hfin : ∀ x, x < vals.length → lb ≤ vals.getD x 0 → x ≤ k → x = k := by
    intro x h1 h2 h3
    rcases Nat.eq_or_lt_of_le h3 with h4 | h4
    · exact h4
    · have := hfirst x h4; omega
  have hupq : lb ≤ ub vals ps (k / ps + 1) := by
    exact Nat.le_trans hkv (le_ub h.sorted (by rw [Nat.succ_mul]; omega) hk)
  rcases Nat.eq_or_lt_of_le hpq with heq | hlt
  · obtain ⟨e', e1, a1, g1, g2, g3, g4⟩ := At.nextGeq_in h (junkU := junkU) hj a (lb := lb) (pe := pe) (fuel := fuel + 1) hbase (by rw [heq]; exact hupq)
    have hpos : e'.position = k := by
      apply hfin _ g2 g3
      rcases g4 with g4 | ⟨g4, g5, -⟩
      · apply Nat.le_of_not_lt; intro hc
        have := g4 k hpk hc; omega
      · rw [g5]; exact hpart g4
    refine ⟨e', ?_, by rw [← heq]; exact a1, hpos⟩
    rw [e1, hpos]
  · have hnl : ub vals ps (p + 1) < lb := by
      have h1 := Nat.mul_le_mul_right ps hlt
      have h2 := Nat.succ_mul p ps
      unfold ub
      exact hfirst _ (by rw [Nat.succ_eq_add_one] at h1 h2; omega)
    rw [PEF.nextGeq, if_neg (by rw [a.base, a.upper]; omega), if_neg (by rw [a.cp]; omega), if_neg (by rw [a.base]; omega),
      if_neg (by have := h.parts; omega), a.cp]
    have hpeP : pe ≤ f.partitions := by
      have h1 : pe * ps ≤ f.partitions * ps := Nat.le_trans hpe h.parts_hi
      exact Nat.le_of_mul_le_mul_right h1 hps0
    have hn56 := h.p63
    have hbs : bsearch (fun i => (f.upper.access junkU i).map BitVec.toNat) lb (f.upper.size - 1) (p + 1) (pe + 1) = some (k / ps + 1) := by
      refine bsearch_found (h.acc hu (by omega)) hupq (by omega) (by omega) (by omega) (by omega) ?_ ?_
      · intro j h1 h2
        refine ⟨_, h.acc hu (by omega), ?_⟩
        unfold ub
        have h3 : j * ps ≤ k / ps * ps := Nat.mul_le_mul_right _ (by omega)
        have h4 : 1 * ps ≤ j * ps := Nat.mul_le_mul_right _ (by omega)
        exact hfirst _ (by omega)
      · intro j h1 h2
        refine ⟨_, h.acc hu (by omega), ?_⟩
        unfold ub
        have h3 : (k / ps + 2) * ps ≤ j * ps := Nat.mul_le_mul_right _ (by omega)
        rw [show k / ps + 2 = (k / ps + 1) + 1 by omega, Nat.succ_mul, Nat.succ_mul] at h3
        have h4 : j * ps ≤ pe * ps := Nat.mul_le_mul_right _ (by omega)
        exact hafter _ (by omega) (by omega)
    rw [hbs, Option.bind_some, if_neg (by omega), if_neg (by rw [h.upSize]; omega)]
    obtain ⟨e1, s1, a1, p1, n1⟩ := h.switch_spec hu a.eoff a.ebits a.soff hq
    rw [Nat.add_sub_cancel, s1, Option.bind_some]
    have hub : ub vals ps (k / ps) ≤ lb := by
      have h3 : (p + 1) * ps ≤ k / ps * ps := Nat.mul_le_mul_right _ hlt
      rw [Nat.succ_mul] at h3
      unfold ub
      exact Nat.le_of_lt (hfirst _ (by omega))
    obtain ⟨e', e2, a2, g1, g2, g3, g4⟩ := At.nextGeq_in h (junkU := junkU) hj a1 (lb := lb) (pe := pe) (fuel := fuel) hub hupq
    have hpos : e'.position = k := by
      apply hfin _ g2 g3
      rcases g4 with g4 | ⟨g4, g5, -⟩
      · apply Nat.le_of_not_lt; intro hc
        have := g4 k (by omega) hc; omega
      · omega
    exact ⟨e', by rw [e2, hpos], a2, hpos⟩

theorem At.nextGeq_sound (h : MHolds f vals ps so eo eb E) {junkU junkD : List W} (hu : junkU ≠ []) (hj : junkD ≠ []) {p : Nat} {e : PEnum}
    (a : At f vals ps so eo eb E p e) {lb pe fuel : Nat} (hlb : lb < NF) (hpe : pe < f.partitions) (hppe : p ≤ pe) :
    ∃ v e' q, f.nextGeq junkU junkD lb pe (fuel + 2) e = some (v, e') ∧ At f vals ps so eo eb E q e' ∧
      (v = lb → e'.position < vals.length ∧ vals.getD e'.position 0 = lb) := by
  have hps0 := h.ps0
  have hn56 := h.p63
  have hNF : NF = 2 ^ 64 - 1 := rfl
  have mono : ∀ i j, i ≤ j → ub vals ps i ≤ ub vals ps j := fun i j hij => ub_mono h.sorted hij h.n0
  by_cases hin : ub vals ps p ≤ lb ∧ lb ≤ ub vals ps (p + 1)
  · obtain ⟨e', e1, a1, g1, g2, g3, g4⟩ := At.nextGeq_in h (junkU := junkU) hj a (lb := lb) (pe := pe) (fuel := fuel + 1) hin.1 hin.2
    exact ⟨_, e', p, e1, a1, fun hv => ⟨g2, hv⟩⟩
  · rw [PEF.nextGeq, if_neg (by rw [a.base, a.upper]; exact hin), if_neg (by rw [a.cp]; omega)]
    by_cases hlt : lb < ub vals ps p
    · rw [if_pos (by rw [a.base]; exact hlt)]
      exact ⟨NF, e, p, rfl, a, fun hv => by omega⟩
    rw [if_neg (by rw [a.base]; exact hlt), if_neg (by have := h.parts; omega), a.cp]
    obtain ⟨r, e1, r1, r2⟩ := bsearch_spec (acc := fun i => (f.upper.access junkU i).map BitVec.toNat) (lb := lb) (last := f.upper.size - 1)
      (U := ub vals ps) mono (lo := p + 1) (hi := pe + 1) (by omega) (by omega) (by omega) (fun j _ _ => h.acc hu (by omega))
    rw [e1, Option.bind_some, if_neg (by omega)]
    rcases r2 with ⟨r2, r3⟩ | ⟨r2, r3, r4⟩
    · by_cases hsz : r = f.upper.size
      · rw [if_pos hsz]
        rw [h.upSize] at hsz
        obtain ⟨v, e', q, e2, a2, p2, v2, -⟩ := At.move h hu hj a (i := vals.length) (Nat.le_refl _)
        rw [h.size, e2]
        refine ⟨v, e', q, rfl, a2, fun hv => ?_⟩
        rw [if_neg (Nat.lt_irrefl _)] at v2
        have h5 : ub vals ps (pe + 1) = vals.getD (vals.length - 1) 0 := by
          unfold ub
          have : pe + 1 = f.partitions := by omega
          have h6 := h.parts_hi
          rw [this, Nat.min_eq_right h6]
        omega
      · rw [if_neg hsz]
        rw [h.upSize] at hsz
        obtain ⟨e2, s2, a2, p2, n2⟩ := h.switch_spec hu a.eoff a.ebits a.soff (p := pe + 1) (by omega)
        rw [show r - 1 = pe + 1 by omega, s2, Option.bind_some]
        by_cases hin2 : lb ≤ ub vals ps (pe + 1 + 1)
        · obtain ⟨e', e3, a3, g1, g2, g3, g4⟩ := At.nextGeq_in h (junkU := junkU) hj a2 (lb := lb) (pe := pe) (fuel := fuel) (by omega) hin2
          exact ⟨_, e', pe + 1, e3, a3, fun hv => ⟨g2, hv⟩⟩
        · rw [PEF.nextGeq, if_neg (by rw [a2.base, a2.upper]; omega), if_pos (by rw [a2.cp]; omega)]
          exact ⟨NF, e2, pe + 1, rfl, a2, fun hv => by omega⟩
    · rw [if_neg (by rw [h.upSize]; omega)]
      obtain ⟨e2, s2, a2, p2, n2⟩ := h.switch_spec hu a.eoff a.ebits a.soff (p := r - 1) (by omega)
      rw [s2, Option.bind_some]
      have hb' : ub vals ps (r - 1) ≤ lb := by
        rcases r4 with r4 | r4
        · rw [r4, Nat.add_sub_cancel]; omega
        · exact r4
      obtain ⟨e', e3, a3, g1, g2, g3, g4⟩ := At.nextGeq_in h (junkU := junkU) hj a2 (lb := lb) (pe := pe) (fuel := fuel) hb'
        (by rw [show r - 1 + 1 = r by omega]; exact r3)
      exact ⟨_, e', r - 1, e3, a3, fun hv => ⟨g2, hv⟩⟩

/-- What precedes the search of `find`: the state is in the partition of the value before the range. -/
theorem At.find_start (h : MHolds f vals ps so eo eb E) {junkU junkD : List W} (hu : junkU ≠ []) (hj : junkD ≠ []) {p : Nat} {e : PEnum}
    (a : At f vals ps so eo eb E p e) {b en id : Nat} (hbe : b < en) (hen : en ≤ vals.length) (hid : id ≠ 0)
    (hlb : Spec.before vals b + id < NF) :
    ∃ e1 q, At f vals ps so eo eb E q e1 ∧ q * ps ≤ b ∧ q ≤ en / ps ∧ (0 < b → q * ps < b ∧ ub vals ps q ≤ Spec.before vals b) ∧ (b = 0 → q = 0) ∧
      (e1.part.position < (pvals vals ps q).length → q * ps + e1.part.position < b) ∧
      f.find junkU junkD e b en id = f.findFrom junkU junkD (Spec.before vals b + id) (en / ps) e1 := by
  have hps0 := h.ps0
  have hNF : NF = 2 ^ 64 - 1 := rfl
  have hbq : b / ps < f.partitions := by
    rw [Nat.div_lt_iff_lt_mul hps0]; have := h.parts_hi; omega
  obtain ⟨e0, s0, a0, -, n0⟩ := h.switch_spec hu a.eoff a.ebits a.soff hbq
  have hstart : f.find junkU junkD e b en id =
      (if b ≠ 0 then f.get junkU junkD e0 (b - 1) else some (0, e0)).bind fun r =>
        f.findFrom junkU junkD ((id + r.1) % 2 ^ 64) (en / ps) r.2 := by
    unfold PEF.find
    rw [if_neg (by omega), if_neg hid, if_pos h.parts, h.hps, s0, Option.bind_some]
  rw [hstart]
  by_cases hb0 : b = 0
  · subst hb0
    have hz : Spec.before vals 0 = 0 := rfl
    refine ⟨e0, 0 / ps, a0, by rw [Nat.zero_div]; omega, by rw [Nat.zero_div]; exact Nat.zero_le _, fun hc => by omega, fun _ => Nat.zero_div _, fun hc => by omega, ?_⟩
    rw [if_neg (by omega), Option.bind_some]
    rw [hz, Nat.zero_add] at hlb
    rw [hz, Nat.zero_add, Nat.mod_eq_of_lt (by show id + 0 < _; omega), Nat.add_zero]
  · obtain ⟨v, e1, q, m1, a1, -, v1, q1⟩ := At.move h hu hj a0 (i := b - 1) (by omega)
    obtain ⟨q2, q3⟩ := q1 (by omega)
    rw [if_pos (by omega)] at v1
    have hbf : Spec.before vals b = v := by unfold Spec.before; rw [if_neg hb0, v1]
    have hqle : q * ps ≤ b - 1 := by rw [q2]; exact Nat.div_mul_le_self _ _
    refine ⟨e1, q, a1, by omega, ?_, fun _ => ⟨by omega, ?_⟩, fun hc => absurd hc hb0, fun _ => by omega, ?_⟩
    · rw [q2]; exact Nat.div_le_div_right (by omega)
    · rw [hbf, v1]; exact ub_le h.sorted hqle (by omega)
    · rw [if_pos hb0]
      unfold PEF.get
      rw [m1, Option.bind_some]
      rw [hbf] at hlb
      rw [hbf, Nat.mod_eq_of_lt (by show id + v < _; omega), Nat.add_comm]

/-- A search whose sum does not exceed the value at some position of the range. -/
theorem At.find_first (h : MHolds f vals ps so eo eb E) {junkU junkD : List W} (hu : junkU ≠ []) (hj : junkD ≠ []) {p : Nat} {e : PEnum}
    (a : At f vals ps so eo eb E p e) {b en id k : Nat} (hen : en ≤ vals.length) (hid : id ≠ 0)
    (hk1 : b ≤ k) (hk2 : k < en) (hkv : Spec.before vals b + id ≤ vals.getD k 0)
    (hstrict : ∀ i j, b ≤ i → i < j → j < en → vals.getD i 0 < vals.getD j 0)
    (hfirst : ∀ j, b ≤ j → j < k → vals.getD j 0 < Spec.before vals b + id) :
    ∃ e' q, f.find junkU junkD e b en id = some (if vals.getD k 0 = Spec.before vals b + id then k else NF, e') ∧ At f vals ps so eo eb E q e' := by
  have hps0 := h.ps0
  have hNF : NF = 2 ^ 64 - 1 := rfl
  have hv := h.bound _ (EF.getD_mem (show k < vals.length by omega))
  have hlb : Spec.before vals b + id < NF := by omega
  obtain ⟨e1, q, a1, h1, h2, h3, h4, h5, h6⟩ := At.find_start h hu hj a (by omega) hen hid hlb
  rw [h6, PEF.findFrom]
  have hdm := Nat.div_add_mod en ps
  have hmod := Nat.mod_lt en hps0
  rw [Nat.mul_comm] at hdm
  by_cases hbase : ub vals ps q ≤ Spec.before vals b + id
  · obtain ⟨e', e2, a2, p2⟩ := At.nextGeq_first h hu hj a1 (lb := Spec.before vals b + id) (pe := en / ps) (fuel := f.partitions) (k := k)
      (by omega) hkv (by omega) (by rw [Nat.succ_mul]; omega) (by omega) (by
        intro j hjk
        rcases Nat.lt_or_ge j b with g | g
        · have : vals.getD j 0 ≤ vals.getD (b - 1) 0 := EF.sorted_getD h.sorted (by omega) (by omega)
          have hbf : Spec.before vals b = vals.getD (b - 1) 0 := by unfold Spec.before; rw [if_neg (by omega)]
          omega
        · exact hfirst j g hjk) (by
        intro j g1 g2
        exact Nat.lt_of_le_of_lt hkv (hstrict k j hk1 g1 (by omega))) (fun hc => by have := h5 hc; omega) hbase
    rw [e2, Option.map_some]
    refine ⟨e', _, ?_, a2⟩
    by_cases hc : vals.getD k 0 = Spec.before vals b + id
    · simp only [if_pos hc, p2]
    · simp only [if_neg hc]
  · have hb0 : b = 0 := by
      apply Classical.byContradiction
      intro hb0
      have := (h3 (by omega)).2
      omega
    have hq := h4 hb0
    subst hb0 hq
    have hz : Spec.before vals 0 = 0 := rfl
    have hne : vals.getD k 0 ≠ Spec.before vals 0 + id := by
      intro hc
      have : ub vals ps 0 ≤ vals.getD k 0 := ub_le h.sorted (by omega) (by omega)
      omega
    rw [PEF.nextGeq, if_neg (by rw [a1.base]; omega), if_neg (by rw [a1.cp]; omega), if_pos (by rw [a1.base]; omega), Option.map_some]
    exact ⟨e1, _, by simp only [if_neg hne, if_neg (show NF ≠ Spec.before vals 0 + id by omega)], a1⟩

theorem At.find_sound (h : MHolds f vals ps so eo eb E) {junkU junkD : List W} (hu : junkU ≠ []) (hj : junkD ≠ []) {p : Nat} {e : PEnum}
    (a : At f vals ps so eo eb E p e) {b en id : Nat} (hbe : b < en) (hen : en ≤ vals.length) (hid : id ≠ 0)
    (hlb : Spec.before vals b + id < NF) (hsafe : en < vals.length ∨ ¬ ps ∣ vals.length) :
    ∃ r e' q, f.find junkU junkD e b en id = some (r, e') ∧ At f vals ps so eo eb E q e' ∧
      (r = NF ∨ b ≤ r ∧ r < vals.length ∧ vals.getD r 0 = Spec.before vals b + id) := by
  have hps0 := h.ps0
  obtain ⟨e1, q, a1, h1, h2, h3, h4, h5, h6⟩ := At.find_start h hu hj a hbe hen hid hlb
  rw [h6, PEF.findFrom]
  have hpe : en / ps < f.partitions := by
    rw [Nat.div_lt_iff_lt_mul hps0]
    have := h.parts_hi
    rcases hsafe with g | g
    · omega
    · have : vals.length ≠ f.partitions * ps := fun hc => g ⟨f.partitions, by rw [Nat.mul_comm]; exact hc⟩
      omega
  obtain ⟨v, e', q', e2, a2, p2⟩ := At.nextGeq_sound h hu hj a1 (fuel := f.partitions) hlb hpe h2
  rw [e2, Option.map_some]
  refine ⟨_, e', q', rfl, a2, ?_⟩
  by_cases hv : v = Spec.before vals b + id
  · simp only [if_pos hv]
    right
    obtain ⟨g1, g2⟩ := p2 hv
    refine ⟨?_, g1, g2⟩
    apply Nat.le_of_not_lt; intro hc
    have : vals.getD e'.position 0 ≤ vals.getD (b - 1) 0 := EF.sorted_getD h.sorted (by omega) (by omega)
    have hbf : Spec.before vals b = vals.getD (b - 1) 0 := by unfold Spec.before; rw [if_neg (by omega)]
    omega
  · simp only [if_neg hv]; left; trivial

end

/-! ## One partition -/

/-- What the reader finds in a sequence of one partition: `u` and `cu` are the universe of the partition and the upper
bound as the reader reconstructs them. -/
structure SHolds (f : PEF) (vals : List Nat) (ps off u cu : Nat) : Prop where
  sorted : Spec.Sorted vals
  bound : ∀ v ∈ vals, v < 2 ^ 57
  n0 : 0 < vals.length
  nps : vals.length ≤ ps
  size : f.size = vals.length
  univ : f.univ = vals.getD (vals.length - 1) 0
  hps : 2 ^ f.logPart = ps
  parts : f.partitions = 1
  ctx : CEF.Ctx f.data.bits off off u (pvals vals ps 0)
  init : f.initSingle = some
    { endpointsOff := 0, endpointBits := 0, seqOff := 0, position := 0, curPartition := 0, curBegin := 0, curEnd := vals.length
      curBase := vals.getD 0 0, curUpper := cu, part := CEF.Enum.new off u vals.length }
  kind : (u = vals.getD (vals.length - 1) 0 - vals.getD 0 0 + 1 ∧ cu = vals.getD (vals.length - 1) 0) ∨
    (2 ≤ vals.length ∧ vals.getD (vals.length - 1) 0 = vals.getD 0 0 ∧ u = 0 ∧ cu = (vals.getD 0 0 + 2 ^ 64 - 1) % 2 ^ 64)

/-- The state of the enumerator. -/
structure SInv (f : PEF) (vals : List Nat) (ps off u cu : Nat) (e : PEnum) : Prop where
  cp : e.curPartition = 0
  cb : e.curBegin = 0
  ce : e.curEnd = vals.length
  base : e.curBase = vals.getD 0 0
  upper : e.curUpper = cu
  part : CEF.EInv f.data.bits off off u (pvals vals ps 0) e.part

theorem ub_zero (vals : List Nat) (ps : Nat) : ub vals ps 0 = vals.getD 0 0 := by
  unfold ub; rw [Nat.zero_mul, Nat.zero_min]

theorem ub_one {vals : List Nat} {ps : Nat} (h : vals.length ≤ ps) : ub vals ps 1 = vals.getD (vals.length - 1) 0 := by
  unfold ub; rw [Nat.one_mul, Nat.min_eq_right h]

theorem length_pvals_zero {vals : List Nat} {ps : Nat} (h : vals.length ≤ ps) : (pvals vals ps 0).length = vals.length := by
  rw [length_pvals]; omega

/-- Reading the bits of a small number with a buffered iterator. -/
theorem iter_getBits_val {it : BitsIter} (hc : it.Clean) {len v : Nat} (hlen : len < 64) (hp : it.pos + len ≤ 64 * it.ws.length)
    (hv : v < 2 ^ len) (hb : ∀ j, j < len → bitAt it.ws (it.pos + j) = v.testBit j) :
    ∃ it', it.getBits len = some (BitVec.ofNat 64 v, it') ∧ it'.ws = it.ws ∧ it'.pos = it.pos + len ∧ it'.Clean := by
  obtain ⟨x, it', e, g, w, p, -, c⟩ := BitsIter.getBits_spec hc.toInv (len := len) (by omega) hp
  refine ⟨it', ?_, w, p, c hc hlen⟩
  rw [e]
  refine congrArg some (Prod.ext ?_ rfl)
  apply BitVec.eq_of_getLsbD_eq
  intro j hj
  show x.getLsbD j = _
  rw [g, BitVec.getLsbD_ofNat]
  by_cases hjl : j < len
  · simp [hjl, hj, hb j hjl]
  · have : v.testBit j = false := Nat.testBit_lt_two_pow (Nat.lt_of_lt_of_le hv (Nat.pow_le_pow_right (by omega) (by omega)))
    simp [hjl, this]

theorem ubOf_small {univ base back : Nat} (h0 : back ≠ 0) (h : back < 2 ^ 31) : ubOf univ base (BitVec.ofNat 64 back) = back := by
  unfold ubOf
  have hne : BitVec.ofNat 64 back ≠ 0 := by
    intro hc
    have := congrArg BitVec.toNat hc
    rw [BitVec.toNat_ofNat, Nat.mod_eq_of_lt (by omega)] at this
    simp at this; omega
  rw [if_pos hne, BitVec.toInt_eq_toNat_cond, BitVec.toNat_setWidth, BitVec.toNat_ofNat, Nat.mod_eq_of_lt (a := back) (by omega),
    Nat.mod_eq_of_lt (by omega), if_pos (by omega)]

theorem ubOf_zero {univ : Nat} (h : univ < 2 ^ 57) : ubOf univ univ 0 = -1 := by
  unfold ubOf
  have : sub64 (sub64 univ univ) 1 = 2 ^ 64 - 1 := by
    rw [sub64_eq (Nat.le_refl _) (by omega), Nat.sub_self]; rfl
  rw [if_neg (by simp), this]
  decide

/-- Writing one partition. -/
theorem writeSingle_ok {vals : List Nat} {lg : Nat} (hs : Spec.Sorted vals) (hb : ∀ v ∈ vals, v < 2 ^ 57)
    (hn0 : 0 < vals.length) (hn : vals.length ≤ 2 ^ lg) (hlg : lg ≤ 7)
    (hd : vals.getD (vals.length - 1) 0 - vals.getD 0 0 < 2 ^ 31 - 1) :
    ∃ b, writeSingle vals (vals.getD (vals.length - 1) 0) = some (.ok b) ∧
      (b.WF ∧ b.size < 2 ^ 63 ∧ b.size ≤ 256 + partLen vals (2 ^ lg) 0) ∧
      ∀ f : PEF, f.size = vals.length → f.univ = vals.getD (vals.length - 1) 0 → f.partitions = 1 →
        f.data = BitVector.ofBuilder b → f.logPart = lg → ∃ off u cu, SHolds f vals (2 ^ lg) off u cu := by
  have hps0 : 0 < 2 ^ lg := Nat.pow_pos (by omega)
  have hps : 2 ^ lg ≤ 2 ^ 7 := Nat.pow_le_pow_right (by omega) hlg
  generalize hlgps : 2 ^ lg = ps at *
  have hl0 := length_pvals_zero hn
  have hmono : vals.getD 0 0 ≤ vals.getD (vals.length - 1) 0 := EF.sorted_getD hs (Nat.zero_le _) (by omega)
  have hub := hb _ (EF.getD_mem (show vals.length - 1 < vals.length by omega))
  have hhead : vals.head? = some (vals.getD 0 0) := by
    rw [List.getD_eq_getElem?_getD, List.head?_eq_getElem?, List.getElem?_eq_getElem hn0]; rfl
  have hmap : vals.map (sub64 · (vals.getD 0 0)) = pvals vals ps 0 := by
    have := drop_eq_map hs hb ps 0
    rw [Nat.zero_mul, List.drop_zero, List.take_of_length_le hn, ub_zero] at this; exact this
  have hlast : (pvals vals ps 0).getLast? = some (vals.getD (vals.length - 1) 0 - vals.getD 0 0) := by
    have h1 := getD_pvals (vals := vals) (ps := ps) (p := 0) (k := vals.length - 1) (by omega)
    rw [Nat.zero_mul, Nat.zero_add, ub_zero] at h1
    rw [← h1, List.getLast?_eq_getElem?, hl0, List.getD_eq_getElem?_getD, List.getElem?_eq_getElem (by omega)]; rfl
  have hub1 := ub_one hn
  have hub0 := ub_zero vals ps
  -- the first value
  have hlgs := ceilLog2_spec (BitVec.ofNat 64 (vals.getD (vals.length - 1) 0 + 1))
  rw [show (BitVec.ofNat 64 (vals.getD (vals.length - 1) 0 + 1)).toNat = vals.getD (vals.length - 1) 0 + 1 by
    rw [BitVec.toNat_ofNat, Nat.mod_eq_of_lt (by omega)]] at hlgs
  have hl57 : ceilLog2 (BitVec.ofNat 64 (vals.getD (vals.length - 1) 0 + 1)) ≤ 57 := by
    by_cases h : 1 < vals.getD (vals.length - 1) 0 + 1
    · have h1 := hlgs.2.1 h
      have h2 : 2 ^ (ceilLog2 (BitVec.ofNat 64 (vals.getD (vals.length - 1) 0 + 1)) - 1) < 2 ^ 57 := by omega
      have := (Nat.pow_lt_pow_iff_right (by omega : 1 < 2)).1 h2
      omega
    · unfold ceilLog2
      rw [show (BitVec.ofNat 64 (vals.getD (vals.length - 1) 0 + 1)).toNat = vals.getD (vals.length - 1) 0 + 1 by
        rw [BitVec.toNat_ofNat, Nat.mod_eq_of_lt (by omega)], if_neg h]; omega
  generalize hub' : ceilLog2 (BitVec.ofNat 64 (vals.getD (vals.length - 1) 0 + 1)) = ubits at *
  have ht0 : (BitVec.ofNat 64 (vals.getD 0 0)).toNat = vals.getD 0 0 := by rw [BitVec.toNat_ofNat, Nat.mod_eq_of_lt (by omega)]
  obtain ⟨b1, e1, w1, s1, g1⟩ := BVBuilder.appendBits_bits noBits_wf (len := ubits) (v := BitVec.ofNat 64 (vals.getD 0 0)) (by omega)
    (by rw [ht0]; omega)
  rw [show noBits.size = 0 from rfl, Nat.zero_add] at s1
  -- the delta
  have hback64 : BitVec.ofNat 64 (vals.getD (vals.length - 1) 0 - vals.getD 0 0) ≠ BitVec.allOnes 64 := by
    intro h
    have := congrArg BitVec.toNat h
    rw [BitVec.toNat_ofNat, Nat.mod_eq_of_lt (by omega), BitVec.toNat_allOnes] at this; omega
  have hdelta : ∃ b2, (if vals.length > 1 then writeDelta b1 (BitVec.ofNat 64 (if vals.getD 0 0 + (vals.getD (vals.length - 1) 0 - vals.getD 0 0) + 1 =
        vals.getD (vals.length - 1) 0 then 0 else vals.getD (vals.length - 1) 0 - vals.getD 0 0)) else some b1) = some b2 ∧ b2.WF ∧
      b2.size = ubits + (if vals.length > 1 then (deltaCode (BitVec.ofNat 64 (vals.getD (vals.length - 1) 0 - vals.getD 0 0))).length else 0) ∧
      (∀ i, i < ubits → bitAt b2.bits i = bitAt b1.bits i) ∧
      (vals.length > 1 → ∀ i, i < (deltaCode (BitVec.ofNat 64 (vals.getD (vals.length - 1) 0 - vals.getD 0 0))).length →
        bitAt b2.bits (ubits + i) = (deltaCode (BitVec.ofNat 64 (vals.getD (vals.length - 1) 0 - vals.getD 0 0))).getD i false) := by
    by_cases h1 : vals.length > 1
    · rw [if_pos h1, if_neg (by omega), if_pos h1]
      obtain ⟨b2, e2, w2, t2⟩ := writeDelta_spec w1 hback64
      refine ⟨b2, e2, w2, ?_, ?_, ?_⟩
      · rw [← BVBuilder.length_toBools, t2, List.length_append, BVBuilder.length_toBools, s1]
      · intro i hi
        rw [w2.bitAt, t2, w1.bitAt, List.getD_eq_getElem?_getD, List.getElem?_append, BVBuilder.length_toBools, if_pos (by omega),
          List.getD_eq_getElem?_getD]
      · intro _ i hi
        rw [w2.bitAt, t2, List.getD_eq_getElem?_getD, List.getElem?_append, BVBuilder.length_toBools, if_neg (by omega),
          List.getD_eq_getElem?_getD, s1]
        congr 2; omega
    · rw [if_neg h1, if_neg h1]
      exact ⟨b1, rfl, w1, by rw [s1, Nat.add_zero], fun _ _ => rfl, fun h => absurd h h1⟩
  obtain ⟨b2, e2, w2, s2, k2, d2⟩ := hdelta
  obtain ⟨b3, e3, w3, s3, k3, g3⟩ := CEF.write_ok w2 (u := vals.getD (vals.length - 1) 0 - vals.getD 0 0 + 1) (vs := pvals vals ps 0)
    (by omega) (by omega) (by omega)
    (fun v hv => by have := pvals_le hs v hv; rw [hub0, Nat.zero_add, hub1] at this; omega) (sorted_pvals hs ps 0)
  have hw3 : b3.size ≤ 64 * b3.bits.length := by
    rw [w3.len]; unfold wordsFor; omega
  have hle3 : b2.size ≤ b3.size := by
    rw [s3]; exact Nat.le_trans (Nat.le_add_right _ _) (Nat.le_add_right _ _)
  refine ⟨b3, ?_, ⟨w3, ?_⟩, ?_⟩
  rotate_left
  · have h1 := partLen_le (vals := vals) (ps := ps) (p := 0) (by omega) (by rw [Nat.zero_add, hub1]; exact hub)
    have h2 : (deltaCode (BitVec.ofNat 64 (vals.getD (vals.length - 1) 0 - vals.getD 0 0))).length ≤ 190 := by
      unfold deltaCode
      rw [List.length_append, length_gammaCode]
      have h3 := msb_lt_64 (nn_ne_zero hback64)
      have h4 := msb_lt_64 (nn_ne_zero (ofNat_msb_ne (nn_ne_zero hback64)))
      simp only [Spec.bitsOf, List.length_map, List.length_range]
      omega
    have h5 : b2.size ≤ ubits + 190 := by
      rw [s2]; split <;> omega
    have h6 : b3.size = b2.size + partLen vals ps 0 := by
      unfold partLen
      rw [hub0, Nat.zero_add, hub1, s3, Nat.add_assoc]
    exact ⟨by omega, by omega⟩
  rotate_right
  · unfold writeSingle
    rw [hhead, Res.lift_some, Res.bind_ok, hmap, hlast, Res.lift_some, Res.bind_ok, hub', e1, Res.lift_some, Res.bind_ok, e2,
      Res.lift_some, Res.bind_ok, e3]
  · intro f f1 f2 f3 f5 f6
    have hfb : f.data.bits = b3.bits := by rw [f5]; rfl
    have hctx : CEF.Ctx f.data.bits b2.size b2.size (vals.getD (vals.length - 1) 0 - vals.getD 0 0 + 1) (pvals vals ps 0) := by
      have := ctx_of_bits (vals := vals) (ps := ps) (p := 0) (ws := f.data.bits) (off := b2.size) hs hb hps hps0 (by omega)
        (by unfold PBits; rw [hfb, hub0, Nat.zero_add, hub1]; exact g3)
        (by unfold partLen; rw [hfb, hub0, Nat.zero_add, hub1]; omega)
      rw [hub0, Nat.zero_add, hub1] at this; exact this
    -- reading the first value
    obtain ⟨it1, r1, rw1, rp1, rc1⟩ := iter_getBits_val (it := BitsIter.new f.data.bits 0) (BitsIter.new_clean _ _) (len := ubits)
      (v := vals.getD 0 0) (by omega)
      (by show 0 + ubits ≤ 64 * f.data.bits.length; rw [hfb]; omega) (by omega) (by
        intro j hj
        show bitAt f.data.bits (0 + j) = _
        rw [hfb, Nat.zero_add, k3 j (by omega), k2 j hj, g1, if_neg (by show ¬ j < 0; omega), BitVec.getLsbD_ofNat]
        show (decide (j - 0 < 64) && _) = _
        rw [show j - noBits.size = j from rfl]
        simp [show j < 64 by omega])
    have rp1' : it1.pos = ubits := by rw [rp1]; show 0 + _ = _; omega
    have rw1' : it1.ws = f.data.bits := rw1
    by_cases h1 : vals.length > 1
    · rw [if_pos h1] at s2
      obtain ⟨it2, r2, -, rp2, -⟩ := readDelta_spec rc1 hback64 ⟨by rw [rp1', rw1', hfb]; omega, fun i hi => by
        rw [rp1', rw1', hfb, k3 _ (by omega), d2 h1 i hi]⟩
      rw [rp1', ← s2] at rp2
      have hinit : ∀ ub : Int, ubOf f.univ (vals.getD 0 0) (BitVec.ofNat 64 (vals.getD (vals.length - 1) 0 - vals.getD 0 0)) = ub →
          ub ≠ 2 ^ 31 - 1 → f.initSingle = some
          { endpointsOff := 0, endpointBits := 0, seqOff := 0, position := 0, curPartition := 0, curBegin := 0, curEnd := vals.length
            curBase := vals.getD 0 0, curUpper := ((((vals.getD 0 0 : Nat) : Int) + ub) % 2 ^ 64).toNat
            part := CEF.Enum.new b2.size (((ub + 1) % 2 ^ 64).toNat) vals.length } := by
        intro ub hu hne
        unfold PEF.initSingle
        rw [f2, hub', r1, Option.bind_some, f1, if_pos h1]
        simp only
        rw [r2, Option.map_some, Option.bind_some, ht0]
        rw [f2] at hu
        simp only [hu]
        rw [if_neg hne, rp2]
      by_cases hz : vals.getD (vals.length - 1) 0 - vals.getD 0 0 = 0
      · have heq : vals.getD (vals.length - 1) 0 = vals.getD 0 0 := by omega
        have hi := hinit (-1) (by rw [f2, hz, heq]; exact ubOf_zero (by omega)) (by decide)
        refine ⟨b2.size, 0, (vals.getD 0 0 + 2 ^ 64 - 1) % 2 ^ 64, hs, hb, hn0, hn, f1, f2, by rw [f6]; exact hlgps, f3, ?_, ?_,
          Or.inr ⟨by omega, heq, rfl, rfl⟩⟩
        · have hl1 : CEF.lowerBitsOf (vals.getD (vals.length - 1) 0 - vals.getD 0 0 + 1) (pvals vals ps 0).length = 0 := by
            unfold CEF.lowerBitsOf; rw [if_neg (by omega)]
          have hl0' : CEF.lowerBitsOf 0 (pvals vals ps 0).length = 0 := by
            unfold CEF.lowerBitsOf; rw [if_neg (by omega)]
          have hlen8 : (pvals vals ps 0).length < 2 ^ 8 := by rw [length_pvals]; omega
          have hle := pvals_le (ps := ps) (p := 0) hs
          rw [hub0, Nat.zero_add, hub1, hz] at hle
          have c2 := hctx.bits.ones
          have c3 := hctx.fit
          rw [hl1, hz] at c2 c3
          refine CEF.Ctx.of_small hctx.pos hlen8 (by rw [Nat.zero_div]; omega) (by rw [hl0']; omega) ⟨?_, ?_⟩ ?_ hctx.sorted ?_ hctx.bound (by omega)
          · rw [hl0']; intro x hx; exact c2 x (by simp at hx ⊢; omega)
          · rw [hl0']; intro k hk j hj; omega
          · rw [hl0']; simp at c3 ⊢; omega
          · rw [hl0']; intro v hv; have := hle v hv; simp; omega
        · have k1 : ((((vals.getD 0 0 : Nat) : Int) + (-1)) % 2 ^ 64).toNat = (vals.getD 0 0 + 2 ^ 64 - 1) % 2 ^ 64 := by
            generalize vals.getD 0 0 = x; omega
          have k2 : (((-1 : Int) + 1) % 2 ^ 64).toNat = 0 := by decide
          rw [hi, k1, k2]
      · have hi := hinit (vals.getD (vals.length - 1) 0 - vals.getD 0 0 : Nat) (ubOf_small hz (by omega)) (by omega)
        refine ⟨b2.size, _, _, hs, hb, hn0, hn, f1, f2, by rw [f6]; exact hlgps, f3, hctx, ?_, Or.inl ⟨rfl, rfl⟩⟩
        generalize vals.getD 0 0 = x at *
        generalize vals.getD (vals.length - 1) 0 = y at *
        have k1 : (((x : Nat) : Int) + ((y - x : Nat) : Int)) % 2 ^ 64 = (y : Int) := by omega
        have k2 : (((y - x : Nat) : Int) + 1) % 2 ^ 64 = ((y - x + 1 : Nat) : Int) := by omega
        rw [hi, k1, k2, Int.toNat_natCast, Int.toNat_natCast]
    · have hn1 : vals.length = 1 := by omega
      rw [if_neg h1, Nat.add_zero] at s2
      refine ⟨b2.size, _, _, hs, hb, hn0, hn, f1, f2, by rw [f6]; exact hlgps, f3, hctx, ?_, Or.inl ⟨rfl, rfl⟩⟩
      unfold PEF.initSingle
      rw [f2, hub', r1, Option.bind_some, f1, if_neg h1, Option.bind_some, ht0]
      simp only
      rw [if_neg (by decide)]
      have k1 : ((((vals.getD 0 0 : Nat) : Int) + 0) % 2 ^ 64).toNat = vals.getD (vals.length - 1) 0 := by
        rw [hn1] at hub ⊢
        simp only [Nat.sub_self] at hub ⊢
        generalize vals.getD 0 0 = x at *; omega
      have k2 : (((0 : Int) + 1) % 2 ^ 64).toNat = vals.getD (vals.length - 1) 0 - vals.getD 0 0 + 1 := by
        rw [hn1, Nat.sub_self]; decide
      rw [rp1', s2, k1, k2]

section
variable {f : PEF} {vals : List Nat} {ps off u cu : Nat}

theorem SHolds.back (h : SHolds f vals ps off u cu) {k : Nat} (hk : k < vals.length) :
    vals.getD 0 0 + (pvals vals ps 0).getD k 0 = vals.getD k 0 := by
  have hl := length_pvals_zero h.nps
  rw [getD_pvals (by omega), Nat.zero_mul, Nat.zero_add, ub_zero]
  have := EF.sorted_getD h.sorted (Nat.zero_le k) hk
  omega

theorem SInv.partMove (h : SHolds f vals ps off u cu) {junkD : List W} (hj : junkD ≠ []) {e : PEnum}
    (a : SInv f vals ps off u cu e) {i : Nat} (hi : i ≤ vals.length) :
    ∃ v e', f.partMove junkD e i = some (v, e') ∧ SInv f vals ps off u cu e' ∧ e'.position = e.position ∧ e'.part.position = i ∧
      (i < vals.length → v = vals.getD i 0) := by
  have hl := length_pvals_zero h.nps
  obtain ⟨c, e1, i1, p1⟩ := h.ctx.move_spec hj a.part (by rw [hl]; exact hi)
  unfold PEF.partMove
  rw [e1, Option.map_some]
  refine ⟨_, _, rfl, ⟨a.cp, a.cb, a.ce, a.base, a.upper, i1⟩, rfl, p1, fun hlt => ?_⟩
  have := i1.value
  rw [p1, if_pos (by omega)] at this
  rw [a.base, this, h.back hlt]

theorem SInv.move (h : SHolds f vals ps off u cu) {junkU junkD : List W} (hj : junkD ≠ []) {e : PEnum}
    (a : SInv f vals ps off u cu e) {i : Nat} (hi : i ≤ vals.length) :
    ∃ v e', f.move junkU junkD e i = some (v, e') ∧ SInv f vals ps off u cu e' ∧ e'.position = i ∧ e'.part.position = i ∧
      v = (if i < vals.length then vals.getD i 0 else vals.getD (vals.length - 1) 0) := by
  unfold PEF.move
  by_cases hc : i < vals.length
  · rw [if_pos (by rw [a.cb, a.ce]; omega), if_pos hc]
    obtain ⟨v, e', e1, a1, p1, q1, v1⟩ := SInv.partMove h hj (e := { e with position := i }) (i := i)
      ⟨a.cp, a.cb, a.ce, a.base, a.upper, a.part⟩ hi
    refine ⟨v, e', by rw [show i - e.curBegin = i by rw [a.cb]; rfl]; exact e1, a1, p1, q1, v1 hc⟩
  · rw [if_neg (by rw [a.cb, a.ce]; omega), if_neg hc]
    have hin : i = vals.length := by omega
    unfold PEF.slowMove
    rw [if_pos (by rw [h.size]; exact hin), if_neg (by rw [h.parts]; omega), Option.bind_some]
    have hn : ({ e with position := i } : PEnum).part.of.n = vals.length := by
      show e.part.of.n = _; rw [a.part.of]; exact length_pvals_zero h.nps
    rw [hn]
    obtain ⟨v, e', e1, a1, p1, q1, v1⟩ := SInv.partMove h hj (e := { e with position := i }) (i := vals.length)
      ⟨a.cp, a.cb, a.ce, a.base, a.upper, a.part⟩ (Nat.le_refl _)
    rw [e1, Option.map_some]
    exact ⟨_, e', rfl, a1, p1, by rw [q1]; exact hin.symm, h.univ⟩

theorem SHolds.initS (h : SHolds f vals ps off u cu) (junkU junkD : List W) :
    ∃ e, f.init junkU junkD = some e ∧ SInv f vals ps off u cu e ∧ e.part.position = vals.length := by
  unfold PEF.init
  rw [if_pos h.parts, h.init]
  refine ⟨_, rfl, ⟨rfl, rfl, rfl, rfl, rfl, ?_⟩, rfl⟩
  have := CEF.new_inv f.data.bits off off u (pvals vals ps 0)
  rw [length_pvals_zero h.nps] at this
  exact this

/-- The enumerator of the partition is at the first occurrence of a value, or at the end. -/
def FirstOcc (vals : List Nat) (e : PEnum) : Prop :=
  vals.length ≤ e.part.position ∨ ∀ k, k < e.part.position → vals.getD k 0 < vals.getD e.part.position 0

/-- `next_geq` of a partition of zeros read with universe 0. -/
theorem zeros_nextGeq (h : SHolds f vals ps off 0 cu) {junkD : List W} (hj : junkD ≠ []) (hz : ∀ k, k < vals.length → (pvals vals ps 0).getD k 0 = 0)
    {e : CEF.Enum} (i : CEF.EInv f.data.bits off off 0 (pvals vals ps 0) e) {lb : Nat} (hlb : 0 < lb) :
    ∃ c, e.nextGeq f.data.bits junkD lb = some c ∧ CEF.EInv f.data.bits off off 0 (pvals vals ps 0) c ∧ c.value = 0 ∧ vals.length ≤ c.position := by
  have hl := length_pvals_zero h.nps
  have hval : e.value = 0 := by
    have := i.value
    by_cases hp : e.position < (pvals vals ps 0).length
    · rw [if_pos hp] at this; rw [this]; exact hz _ (by omega)
    · rw [if_neg hp] at this; exact this
  have hn : e.of.n = vals.length := by rw [i.of]; exact hl
  have hu : e.of.univ = 0 := by rw [i.of]; rfl
  unfold CEF.Enum.nextGeq
  rw [if_neg (by omega)]
  by_cases hc : lb > e.value ∧ lb / 2 ^ e.of.lowerBits - e.value / 2 ^ e.of.lowerBits ≤ CEF.Enum.threshold
  · rw [if_pos hc]
    have key : ∀ (fuel pos : Nat) (he : Option UnaryIter), vals.length ≤ pos + fuel → 0 < fuel →
        (pos < vals.length → ∃ x, he = some x ∧ CEF.Ctx.Cursor f.data.bits off 0 (pvals vals ps 0) x pos) →
        ∃ pos' he', CEF.Enum.scanGeq f.data.bits junkD (CEF.offsets off 0 (pvals vals ps 0).length) lb fuel pos he = some (pos', 0, he') ∧ vals.length ≤ pos' := by
      intro fuel
      induction fuel with
      | zero => intro pos he _ h0; omega
      | succ fuel ih =>
        intro pos he hf _ hhe
        rw [CEF.Enum.scanGeq]
        have hn' : (CEF.offsets off 0 (pvals vals ps 0).length).n = vals.length := hl
        rw [hn']
        by_cases hp : pos + 1 < vals.length
        · rw [if_pos hp]
          obtain ⟨x, ex, hx⟩ := hhe (by omega)
          obtain ⟨x', e1, c1⟩ := h.ctx.readNext_cursor hj (by omega) hx
          rw [ex, Option.bind_some, e1, Option.bind_some]
          simp only
          rw [hz _ hp, if_pos hlb]
          exact ih (pos + 1) (some x') (by omega) (by omega) (fun _ => ⟨x', rfl, c1⟩)
        · rw [if_neg hp]
          exact ⟨pos + 1, he, rfl, by omega⟩
    obtain ⟨pos', he', e1, p1⟩ := key (vals.length + 1) e.position e.he (by omega) (by omega) (fun hp => by
      obtain ⟨x, ex, hx⟩ := i.he (by omega)
      exact ⟨x, ex, hx⟩)
    rw [hn]
    have e1' : CEF.Enum.scanGeq f.data.bits junkD e.of lb (vals.length + 1) e.position e.he = some (pos', 0, he') := by
      rw [i.of]; exact e1
    rw [e1', Option.map_some]
    refine ⟨_, rfl, ⟨i.of, ?_, fun hp => ?_⟩, rfl, p1⟩
    · show 0 = _; rw [if_neg (by show ¬ pos' < _; omega)]
    · have hp' : pos' < (pvals vals ps 0).length := hp
      omega
  · rw [if_neg hc]
    unfold CEF.Enum.slowNextGeq
    rw [if_pos (by rw [hu]; omega), hn]
    obtain ⟨c, e1, i1, p1⟩ := h.ctx.move_spec hj i (p := vals.length) (by omega)
    refine ⟨c, e1, i1, ?_, by omega⟩
    rw [i1.value, if_neg (by omega)]

theorem SInv.nextGeq_spec (h : SHolds f vals ps off u cu) {junkU junkD : List W} (hj : junkD ≠ []) {e : PEnum}
    (a : SInv f vals ps off u cu e) {lb pe fuel : Nat} (hlb : lb < NF) (h0 : 0 < lb) :
    ∃ v e', f.nextGeq junkU junkD lb pe (fuel + 1) e = some (v, e') ∧ SInv f vals ps off u cu e' ∧
      (FirstOcc vals e ∨ vals.getD 0 0 ≤ lb ∧ (e.part.position < vals.length → vals.getD e.part.position 0 ≠ lb) → FirstOcc vals e') ∧
      (v = lb → (u = 0 ∧ e'.position = vals.length ∨ e'.position < vals.length ∧ vals.getD e'.position 0 = lb)) ∧
      (u ≠ 0 → ∀ k, Spec.FirstGeq vals lb k → vals.getD k 0 = lb → (FirstOcc vals e ∨ e.part.position < k) → v = lb ∧ e'.position = k) := by
  have hl := length_pvals_zero h.nps
  have hn0 := h.n0
  have hNF : NF = 2 ^ 64 - 1 := rfl
  have hb := h.bound _ (EF.getD_mem (show vals.length - 1 < vals.length by omega))
  have hm := EF.sorted_getD h.sorted (Nat.zero_le (vals.length - 1)) (by omega)
  have hout : ∀ (hlo : vals.getD 0 0 ≤ lb) (hno : ¬ (lb ≥ e.curBase ∧ lb ≤ e.curUpper)), ∃ v e', f.nextGeq junkU junkD lb pe (fuel + 1) e = some (v, e') ∧
      SInv f vals ps off u cu e' ∧ vals.length ≤ e'.part.position ∧ e'.position = vals.length ∧ v = vals.getD (vals.length - 1) 0 := by
    intro hlo hno
    rw [PEF.nextGeq, if_neg hno, if_neg (by rw [a.cp]; omega), if_neg (by rw [a.base]; omega), if_pos h.parts, if_neg (by rw [a.base]; omega)]
    obtain ⟨v, e', e1, a1, p1, q1, v1⟩ := SInv.move h (junkU := junkU) hj a (i := vals.length) (Nat.le_refl _)
    rw [if_neg (Nat.lt_irrefl _)] at v1
    rw [h.size]
    exact ⟨v, e', e1, a1, by omega, p1, v1⟩
  by_cases hlo : vals.getD 0 0 ≤ lb
  · rcases h.kind with ⟨hu, hc⟩ | ⟨h2, heq, hu, hc⟩
    · by_cases hhi : lb ≤ vals.getD (vals.length - 1) 0
      · -- inside
        obtain ⟨m, -, hfm⟩ := Spec.FirstGeq.exists (vs := vals) (lb := lb) (k := vals.length - 1) (by omega) hhi
        have hpm : Spec.FirstGeq (pvals vals ps 0) (lb - vals.getD 0 0) m := by
          refine ⟨by have := hfm.1; omega, ?_, fun k hk => ?_⟩
          · have := h.back hfm.1; have := hfm.2.1; omega
          · have h1 := h.back (show k < vals.length by have := hfm.1; omega)
            have h2 := hfm.2.2 k hk
            have h3 := EF.sorted_getD h.sorted (Nat.zero_le k) (by have := hfm.1; omega); omega
        obtain ⟨c, e1, i1, r1⟩ := h.ctx.nextGeq_spec hj (fun v hv => by
          have := pvals_le h.sorted v hv; rw [ub_zero, Nat.zero_add, ub_one h.nps] at this; omega) a.part hpm
        rw [PEF.nextGeq, if_pos (by rw [a.base, a.upper, hc]; exact ⟨hlo, hhi⟩), a.base, e1, Option.map_some]
        have hcl : c.position < vals.length := by
          rcases r1 with r | ⟨r, h3, -⟩
          · have := hfm.1; omega
          · rw [r]; omega
        have hv : vals.getD 0 0 + c.value = vals.getD c.position 0 := by
          have := i1.value
          rw [if_pos (by omega)] at this
          rw [this, h.back hcl]
        refine ⟨_, { e with part := c, position := e.curBegin + c.position }, by rw [a.base], ⟨a.cp, a.cb, a.ce, a.base, a.upper, i1⟩, ?_, ?_, ?_⟩
        · intro hf
          unfold FirstOcc
          show _ ≤ c.position ∨ ∀ k, k < c.position → _ < vals.getD c.position 0
          rcases r1 with r | ⟨r, h3, h4⟩
          · right; intro k hk
            have := hfm.2.2 k (by omega)
            have := hfm.2.1
            rw [r]; omega
          · rcases hf with hf | hf
            · unfold FirstOcc at hf; rw [← r] at hf; exact hf
            · exfalso
              apply hf.2 (by omega)
              rw [← h.back (by omega), h4]; omega
        · intro hv'
          right
          show e.curBegin + c.position < _ ∧ vals.getD (e.curBegin + c.position) 0 = _
          rw [a.cb, Nat.zero_add]
          exact ⟨hcl, by omega⟩
        · intro _ k hk hkv hcond
          have hkm : k = m := by
            rcases Nat.lt_trichotomy k m with g | g | g
            · have := hfm.2.2 k g; omega
            · exact g
            · have := hk.2.2 m g; have := hfm.2.1; omega
          have hpos : c.position = k := by
            rcases r1 with r | ⟨r, h3, h4⟩
            · omega
            · have h5 : vals.getD e.part.position 0 = lb := by rw [← h.back (by omega), h4]; omega
              rw [r]
              rcases hcond with hf | hf
              · rcases hf with hf | hf
                · omega
                · rcases Nat.lt_trichotomy e.part.position k with g | g | g
                  · have := hk.2.2 _ g; omega
                  · exact g
                  · have := hf k g; omega
              · have := hk.2.2 _ hf; omega
          refine ⟨by show vals.getD 0 0 + c.value = lb; rw [hv, hpos, hkv], ?_⟩
          show e.curBegin + c.position = k
          rw [a.cb]; omega
      · obtain ⟨v, e', e1, a1, p1, q1, v1⟩ := hout hlo (by rw [a.base, a.upper, hc]; omega)
        refine ⟨v, e', e1, a1, fun _ => Or.inl p1, fun hv => by omega, fun _ k hk hkv _ => ?_⟩
        have := EF.sorted_getD h.sorted (show k ≤ vals.length - 1 by have := hk.1; omega) (by omega)
        omega
    · subst hu
      by_cases hz : vals.getD 0 0 = 0
      · have hcu : cu = 2 ^ 64 - 1 := by rw [hc, hz]
        have hall : ∀ k, k < vals.length → (pvals vals ps 0).getD k 0 = 0 := by
          intro k hk
          have h1 := EF.sorted_getD h.sorted (show k ≤ vals.length - 1 by omega) (by omega)
          have h2 := h.back hk
          omega
        obtain ⟨c, e1, i1, v1, p1⟩ := zeros_nextGeq h hj hall a.part h0
        rw [PEF.nextGeq, if_pos (by rw [a.base, a.upper, hcu]; omega), a.base, hz, Nat.sub_zero, e1, Option.map_some]
        refine ⟨_, _, rfl, ⟨a.cp, a.cb, a.ce, hz.symm, a.upper, i1⟩, fun _ => Or.inl p1, ?_, fun hc => absurd rfl hc⟩
        intro hv
        have hv' : 0 + c.value = lb := hv
        omega
      · have hcu : cu = vals.getD 0 0 - 1 := by
          clear hout
          rw [hc, show vals.getD 0 0 + 2 ^ 64 - 1 = (vals.getD 0 0 - 1) + 2 ^ 64 by omega, Nat.add_mod_right, Nat.mod_eq_of_lt (by omega)]
        have hno : ¬ (lb ≥ e.curBase ∧ lb ≤ e.curUpper) := by rw [a.base, a.upper, hcu]; omega
        obtain ⟨v, e', e1, a1, p1, q1, v1⟩ := hout hlo hno
        exact ⟨v, e', e1, a1, fun _ => Or.inl p1, fun _ => Or.inl ⟨rfl, q1⟩, fun hc => absurd rfl hc⟩
  · rw [PEF.nextGeq, if_neg (by rw [a.base]; omega), if_neg (by rw [a.cp]; omega), if_pos (by rw [a.base]; omega)]
    refine ⟨NF, e, rfl, a, fun hf => ?_, fun hv => by omega, fun _ k hk hkv _ => ?_⟩
    · rcases hf with hf | hf
      · exact hf
      · exact absurd hf.1 hlo
    · have := EF.sorted_getD h.sorted (Nat.zero_le k) hk.1
      omega

theorem SInv.find_spec (h : SHolds f vals ps off u cu) {junkU junkD : List W} (hj : junkD ≠ []) {e : PEnum}
    (a : SInv f vals ps off u cu e) {b en id : Nat} (hbe : b < en) (hen : en ≤ vals.length) (hid : id ≠ 0)
    (hlb : Spec.before vals b + id < NF) :
    ∃ r e', f.find junkU junkD e b en id = some (r, e') ∧ SInv f vals ps off u cu e' ∧
      (FirstOcc vals e → FirstOcc vals e') ∧
      (r = NF ∨ u = 0 ∧ r = vals.length ∨ b ≤ r ∧ r < vals.length ∧ vals.getD r 0 = Spec.before vals b + id) ∧
      (u ≠ 0 → (FirstOcc vals e ∨ b ≠ 0) → ∀ k, b ≤ k → k < en → vals.getD k 0 = Spec.before vals b + id →
        (∀ i j, b ≤ i → i < j → j < en → vals.getD i 0 < vals.getD j 0) → r = k) := by
  have hNF : NF = 2 ^ 64 - 1 := rfl
  obtain ⟨e1, v0, s1, s2, s3, s4⟩ : ∃ e1 v0, (if b ≠ 0 then f.get junkU junkD e (b - 1) else some (0, e)) = some (v0, e1) ∧
      SInv f vals ps off u cu e1 ∧ v0 = Spec.before vals b ∧
      (if b = 0 then e1 = e else e1.part.position = b - 1) := by
    by_cases hb : b = 0
    · subst hb
      exact ⟨e, 0, if_neg (by simp), a, by unfold Spec.before; rw [if_pos rfl], by rw [if_pos rfl]⟩
    · obtain ⟨v, e', g1, g2, g3, g4, g5⟩ := SInv.move h (junkU := junkU) hj a (i := b - 1) (by omega)
      refine ⟨e', v, (if_pos hb).trans g1, g2, ?_, by rw [if_neg hb]; exact g4⟩
      rw [g5, if_pos (by omega)]; unfold Spec.before; rw [if_neg hb]
  have hfind : f.find junkU junkD e b en id = f.findFrom junkU junkD (Spec.before vals b + id) (en / ps) e1 := by
    rw [PEF.find, if_neg (by omega), if_neg hid, if_neg (by rw [h.parts]; omega), Option.bind_some, s1, Option.bind_some]
    show f.findFrom _ _ ((id + v0) % 2 ^ 64) _ _ = _
    rw [s3, Nat.mod_eq_of_lt (by omega), h.hps, Nat.add_comm]
  obtain ⟨v, e', n1, n2, n3, n4, n5⟩ := SInv.nextGeq_spec h (junkU := junkU) hj s2 (lb := Spec.before vals b + id) (pe := en / ps)
    (fuel := f.partitions + 1) hlb (by omega)
  have hbef : b ≠ 0 → vals.getD (b - 1) 0 = Spec.before vals b := fun hb => by unfold Spec.before; rw [if_neg hb]
  refine ⟨_, e', by rw [hfind, PEF.findFrom, n1, Option.map_some], n2, fun hf => n3 ?_, ?_, ?_⟩
  · by_cases hb : b = 0
    · rw [if_pos hb] at s4; rw [s4]; exact Or.inl hf
    · right
      rw [if_neg hb] at s4
      have := hbef hb
      refine ⟨?_, fun _ => by rw [s4]; omega⟩
      have := EF.sorted_getD h.sorted (Nat.zero_le (b - 1)) (by omega)
      omega
  · show (if v = _ then e'.position else NF) = NF ∨ _
    by_cases hv : v = Spec.before vals b + id
    · rw [if_pos hv]
      rcases n4 hv with ⟨g1, g2⟩ | ⟨g1, g2⟩
      · exact Or.inr (Or.inl ⟨g1, g2⟩)
      · refine Or.inr (Or.inr ⟨?_, g1, g2⟩)
        apply Nat.le_of_not_lt
        intro hlt
        have := EF.sorted_getD h.sorted (show e'.position ≤ b - 1 by omega) (by omega)
        have := hbef (by omega)
        omega
    · rw [if_neg hv]; exact Or.inl rfl
  · intro hu hf k hk1 hk2 hkv hstrict
    show (if v = _ then e'.position else NF) = k
    have hfg : Spec.FirstGeq vals (Spec.before vals b + id) k := by
      refine ⟨by omega, by omega, fun j hj => ?_⟩
      by_cases hjb : b ≤ j
      · have := hstrict j k hjb hj hk2; omega
      · have := EF.sorted_getD h.sorted (show j ≤ b - 1 by omega) (by omega)
        have := hbef (by omega)
        omega
    obtain ⟨w1, w2⟩ := n5 hu k hfg hkv (by
      by_cases hb : b = 0
      · rw [if_pos hb] at s4; rw [s4]; exact hf.imp (fun g => g) (fun g => absurd hb g)
      · right; rw [if_neg hb] at s4; omega)
    rw [if_pos w1, w2]

end

/-! ## Sessions: any history of operations on one object -/

/-- An operation of the API: `operator[](i)` or `find({b, en}, id)`. -/
inductive Op where
  | access (i : Nat)
  | find (b en id : Nat)

/-- Runs one operation: uniform_pef_sequence.hpp:155-157 or 159-191. -/
def Op.run (f : PEF) (junkU junkD : List W) (e : PEnum) : Op → Option (Nat × PEnum)
  | .access i => f.get junkU junkD e i
  | .find b en id => f.find junkU junkD e b en id

/-- Runs a list of operations on one object and collects the answers. -/
def runFrom (f : PEF) (junkU junkD : List W) : PEnum → List Op → Option (List Nat × PEnum)
  | e, [] => some ([], e)
  | e, op :: ops => (op.run f junkU junkD e).bind fun r => (runFrom f junkU junkD r.2 ops).map fun s => (r.1 :: s.1, s.2)

/-- The answers to a list of operations on a sequence that has just been built or loaded (lines 150-152, 503-509). -/
def session (f : PEF) (junkU junkD : List W) (ops : List Op) : Option (List Nat) :=
  (f.init junkU junkD).bind fun e => (runFrom f junkU junkD e ops).map (·.1)

/-- `id` is at position `k` of the strictly increasing range `[b, en)` of the values `vals`. -/
structure PresentAt (vals : List Nat) (b en id k : Nat) : Prop where
  lo : b ≤ k
  hi : k < en
  len : en ≤ vals.length
  val : vals.getD k 0 = Spec.before vals b + id
  strict : ∀ i j, b ≤ i → i < j → j < en → vals.getD i 0 < vals.getD j 0

/-- The operations that read inside the sequence. The last clause: the search for an absent id must not be on a range
that ends at the end of the sequence when the last of two or more partitions is full (there the code reads past the
upper bounds, see `C18_absent_reads_past_upper_bounds_defect`), unless the range has a greater id. -/
def Op.Ok (vals : List Nat) (ps : Nat) : Op → Prop
  | .access i => i < vals.length
  | .find b en id => b ≤ en ∧ en ≤ vals.length ∧ Spec.before vals b + id < NF ∧
      (vals.length ≤ ps ∨ en < vals.length ∨ ¬ ps ∣ vals.length ∨
        (∃ k, b ≤ k ∧ k < en ∧ Spec.before vals b + id ≤ vals.getD k 0) ∧ ∀ i j, b ≤ i → i < j → j < en → vals.getD i 0 < vals.getD j 0)

/-- The answers allowed: the value for `operator[]`; for `find` the not-found value, or a position from `b` on where
the value is the one searched, with three exceptions: the empty range is answered not-found, id 0 is answered `b`, and
a sequence of one partition whose values are all equal may answer `vals.length`. -/
def Op.Answer (vals : List Nat) (ps : Nat) : Op → Nat → Prop
  | .access i, r => r = vals.getD i 0
  | .find b en id, r => if b = en then r = NF else if id = 0 then r = b else
      r = NF ∨ (b ≤ r ∧ r < vals.length ∧ vals.getD r 0 = Spec.before vals b + id) ∨
      (r = vals.length ∧ 2 ≤ vals.length ∧ vals.length ≤ ps ∧ vals.getD (vals.length - 1) 0 = vals.getD 0 0)

/-- What `write` produces. -/
def Built (f : PEF) (vals : List Nat) (ps : Nat) : Prop :=
  (∃ so eo eb E, MHolds f vals ps so eo eb E) ∨ (∃ off u cu, SHolds f vals ps off u cu)

/-- The states of the enumerator of a built sequence. -/
def Good (f : PEF) (vals : List Nat) (ps : Nat) (e : PEnum) : Prop :=
  (∃ so eo eb E p, MHolds f vals ps so eo eb E ∧ At f vals ps so eo eb E p e) ∨
  (∃ off u cu, SHolds f vals ps off u cu ∧ SInv f vals ps off u cu e)

/-- The states reached by searches only. -/
def Fresh (f : PEF) (vals : List Nat) (ps : Nat) (e : PEnum) : Prop :=
  (∃ so eo eb E p, MHolds f vals ps so eo eb E ∧ At f vals ps so eo eb E p e) ∨
  (∃ off u cu, SHolds f vals ps off u cu ∧ SInv f vals ps off u cu e ∧ FirstOcc vals e)

theorem Fresh.good {f : PEF} {vals : List Nat} {ps : Nat} {e : PEnum} (h : Fresh f vals ps e) : Good f vals ps e :=
  h.imp id fun ⟨off, u, cu, a, b, _⟩ => ⟨off, u, cu, a, b⟩

/-- The sizes of what `write` produces. -/
def Sized (f : PEF) (vals : List Nat) : Prop :=
  f.univ = vals.getD (vals.length - 1) 0 ∧ (f.partitions ≤ vals.length ∧ (f.partitions - 1) * 2 ^ f.logPart < vals.length) ∧
    (f.logPart ≤ 7 ∧ 6 ≤ f.logPart) ∧
    (∃ b : BVBuilder, b.WF ∧ (b.size < 2 ^ 63 ∧ b.size ≤ 64 * (f.partitions - 1) + 256 + partsLen vals (2 ^ f.logPart) 0 f.partitions) ∧
      f.data = BitVector.ofBuilder b) ∧
    (f.upper = CompactVector.ofBuilder noInts ∨ ∃ (ups : List Nat) (w : Nat) (b b' : CVBuilder),
      (ups.length ≤ vals.length + 1 ∧ ups.length = f.partitions + 1 ∧ w ≤ 57) ∧
      CVBuilder.new ups.length w = some b ∧ b.fill (ups.map (BitVec.ofNat 64)) = some b' ∧ f.upper = CompactVector.ofBuilder b')

theorem write_ok {vals : List Nat} {order : Nat} (hs : Spec.Sorted vals) (hb : ∀ v ∈ vals, v < 2 ^ 57)
    (hn0 : 0 < vals.length) (hn : vals.length < 2 ^ 56)
    (hd : vals.length ≤ 2 ^ logPartOf order → vals.getD (vals.length - 1) 0 - vals.getD 0 0 < 2 ^ 31 - 1) :
    ∃ f, write vals (vals.getD (vals.length - 1) 0) order = some (.ok f) ∧ f.size = vals.length ∧
      Built f vals (2 ^ logPartOf order) ∧ Sized f vals := by
  have hlg : logPartOf order ≤ 7 := by unfold logPartOf; split <;> omega
  have hlg6 : 6 ≤ logPartOf order := by unfold logPartOf; split <;> omega
  have h0 : 0 < 2 ^ logPartOf order := Nat.pow_pos (by omega)
  by_cases h1 : ceilDiv vals.length (2 ^ logPartOf order) = 1
  · have hle : vals.length ≤ 2 ^ logPartOf order := by
      have h2 := h1
      unfold ceilDiv at h2
      have h3 : (vals.length + 2 ^ logPartOf order - 1) / 2 ^ logPartOf order < 2 := by omega
      rw [Nat.div_lt_iff_lt_mul h0] at h3
      omega
    obtain ⟨b, w1, w3, w2⟩ := writeSingle_ok (lg := logPartOf order) hs hb hn0 hle hlg (hd hle)
    refine ⟨_, by unfold PEF.write; simp only [h1, if_true]; rw [w1, Res.bind_ok], rfl, Or.inr ?_, rfl, ⟨?_, ?_⟩, ⟨hlg, hlg6⟩, ⟨b, w3.1, ⟨w3.2.1, ?_⟩, rfl⟩, Or.inl rfl⟩
    · exact w2 _ rfl rfl rfl rfl rfl
    · show 1 ≤ _; omega
    · show (1 - 1) * _ < _; omega
    · show b.size ≤ 64 * (1 - 1) + 256 + (partLen vals _ 0 + 0)
      have := w3.2.2
      omega
  · have hgt : 1 < ceilDiv vals.length (2 ^ logPartOf order) := by
      have : 0 < ceilDiv vals.length (2 ^ logPartOf order) := by
        unfold ceilDiv
        exact Nat.div_pos (by omega) h0
      omega
    obtain ⟨r, w1, ⟨w3, w4, ups, w, cvb, w5, w6, w7⟩, w2⟩ := writeMulti_ok (lg := logPartOf order) hs hb hn hlg hgt
    refine ⟨_, by unfold PEF.write; simp only [h1, if_false]; rw [w1, Res.bind_ok], rfl, Or.inl ?_, rfl, ⟨?_, ?_⟩, ⟨hlg, hlg6⟩, ⟨r.1, w3, w4, rfl⟩,
      Or.inr ⟨ups, w, cvb, r.2, w5, w6, w7, rfl⟩⟩
    · exact w2 _ rfl rfl rfl rfl rfl rfl
    · have h2 := ceilDiv_spec vals.length h0
      have h3 := Nat.mul_le_mul_right (ceilDiv vals.length (2 ^ logPartOf order) - 1) h0
      show ceilDiv vals.length (2 ^ logPartOf order) ≤ _
      have h4 := Nat.le_mul_of_pos_left (ceilDiv vals.length (2 ^ logPartOf order) - 1) h0
      have h5 : 2 ^ logPartOf order * (ceilDiv vals.length (2 ^ logPartOf order) - 1) + 2 ^ logPartOf order = 2 ^ logPartOf order * ceilDiv vals.length (2 ^ logPartOf order) := by
        rw [← Nat.mul_succ]; congr 1; omega
      omega
    · have h2 := ceilDiv_spec vals.length h0
      have h5 : 2 ^ logPartOf order * (ceilDiv vals.length (2 ^ logPartOf order) - 1) + 2 ^ logPartOf order = 2 ^ logPartOf order * ceilDiv vals.length (2 ^ logPartOf order) := by
        rw [← Nat.mul_succ]; congr 1; omega
      show (ceilDiv vals.length (2 ^ logPartOf order) - 1) * _ < _
      rw [Nat.mul_comm]
      show 2 ^ logPartOf order * _ < _
      omega

theorem Built.init {f : PEF} {vals : List Nat} {ps : Nat} (h : Built f vals ps) {junkU junkD : List W} (hu : junkU ≠ [])
    (hj : junkD ≠ []) : ∃ e, f.init junkU junkD = some e ∧ Fresh f vals ps e := by
  rcases h with ⟨so, eo, eb, E, h⟩ | ⟨off, u, cu, h⟩
  · obtain ⟨e, e1, a⟩ := h.init hu hj
    exact ⟨e, e1, Or.inl ⟨so, eo, eb, E, 0, h, a⟩⟩
  · obtain ⟨e, e1, a, p⟩ := h.initS junkU junkD
    exact ⟨e, e1, Or.inr ⟨off, u, cu, h, a, Or.inl (by omega)⟩⟩

theorem before_lt {vals : List Nat} {b : Nat} (hb : b ≤ vals.length) (h : ∀ v ∈ vals, v < 2 ^ 57) : Spec.before vals b < 2 ^ 57 := by
  unfold Spec.before
  split
  · omega
  · exact h _ (EF.getD_mem (by omega))

theorem find_trivial {f : PEF} {junkU junkD : List W} {e : PEnum} {b en id : Nat} (h : b = en ∨ id = 0) :
    f.find junkU junkD e b en id = some (if b = en then NF else b, e) := by
  unfold PEF.find
  by_cases hb : b = en
  · rw [if_pos hb, if_pos hb]
  · rw [if_neg hb, if_neg hb, if_pos (h.resolve_left hb)]

theorem PresentAt.zero {vals : List Nat} {b en k : Nat} (hs : Spec.Sorted vals) (h : PresentAt vals b en 0 k) : k = b := by
  have h1 := h.lo; have h2 := h.hi; have h3 := h.len; have h4 := h.val
  apply Nat.le_antisymm _ h1
  apply Nat.le_of_not_lt
  intro hlt
  have h5 := h.strict b k (Nat.le_refl _) hlt h2
  unfold Spec.before at h4
  split at h4
  · omega
  · have := EF.sorted_getD hs (show b - 1 ≤ b by omega) (by omega); omega

section
variable {f : PEF} {vals : List Nat} {ps : Nat}

theorem exists_least {P : Nat → Prop} (h : ∃ k, P k) : ∃ k, P k ∧ ∀ j, P j → k ≤ j := by
  obtain ⟨n, hn⟩ := h
  induction n using Nat.strongRecOn with
  | ind n ih =>
    by_cases hc : ∃ m, m < n ∧ P m
    · obtain ⟨m, h1, h2⟩ := hc; exact ih m h1 h2
    · exact ⟨n, hn, fun j hj => Nat.le_of_not_lt fun hlt => hc ⟨j, hlt, hj⟩⟩

theorem At.step {so eo eb : Nat} {E : Nat → Nat} (h : MHolds f vals ps so eo eb E) {p : Nat} {e : PEnum} (a : At f vals ps so eo eb E p e)
    {junkU junkD : List W} (hu : junkU ≠ []) (hj : junkD ≠ []) {op : Op} (hop : op.Ok vals ps) :
    ∃ r e' q, op.run f junkU junkD e = some (r, e') ∧ At f vals ps so eo eb E q e' ∧ op.Answer vals ps r ∧
      (∀ b en id k, op = .find b en id → PresentAt vals b en id k → r = k) := by
  have hlen : ps < vals.length := by have := h.parts_lo 1 h.parts; omega
  cases op with
  | access i =>
    obtain ⟨v, e', q, g1, g2, -, g3, -⟩ := a.move h hu hj (i := i) (Nat.le_of_lt hop)
    refine ⟨v, e', q, g1, g2, ?_, fun b en id k hk => by cases hk⟩
    rw [g3, if_pos (show i < vals.length from hop)]
    rfl
  | find b en id =>
    obtain ⟨o1, o2, o3, o4⟩ := hop
    by_cases ht : b = en ∨ id = 0
    · refine ⟨_, e, p, find_trivial ht, a, ?_, ?_⟩
      · show if b = en then _ else _
        split
        · rfl
        · next hb => rw [if_pos (ht.resolve_left hb)]
      · intro b' en' id' k heq hk
        cases heq
        have h1 := hk.lo; have h2 := hk.hi
        rcases ht with ht | ht
        · omega
        · subst ht
          rw [if_neg (by omega)]
          exact (hk.zero h.sorted).symm
    · have hb : b ≠ en := fun x => ht (Or.inl x)
      have hid : id ≠ 0 := fun x => ht (Or.inr x)
      by_cases hpr : (∃ k, b ≤ k ∧ k < en ∧ Spec.before vals b + id ≤ vals.getD k 0) ∧
          ∀ i j, b ≤ i → i < j → j < en → vals.getD i 0 < vals.getD j 0
      · obtain ⟨hex, hstr⟩ := hpr
        obtain ⟨k, ⟨k1, k2, k3⟩, k4⟩ := exists_least (P := fun k => b ≤ k ∧ k < en ∧ Spec.before vals b + id ≤ vals.getD k 0) hex
        obtain ⟨e', q, g1, g2⟩ := a.find_first h hu hj o2 hid k1 k2 k3 hstr (fun j j1 j2 => by
          have := fun h => k4 j ⟨j1, by omega, h⟩
          omega)
        refine ⟨_, e', q, g1, g2, ?_, ?_⟩
        · show if b = en then _ else _
          rw [if_neg hb, if_neg hid]
          by_cases hv : vals.getD k 0 = Spec.before vals b + id
          · rw [if_pos hv]; exact Or.inr (Or.inl ⟨k1, by omega, hv⟩)
          · rw [if_neg hv]; exact Or.inl rfl
        · intro b' en' id' k' heq hk'
          cases heq
          have hle : k ≤ k' := Nat.le_of_not_lt fun hlt => by
            have := k4 k' ⟨hk'.lo, hk'.hi, Nat.le_of_eq hk'.val.symm⟩; omega
          rcases Nat.eq_or_lt_of_le hle with heq | hlt
          · subst heq; rw [if_pos hk'.val]
          · have := hstr k k' k1 hlt hk'.hi; have := hk'.val; omega
      · have hpr' : ∀ k, ¬ PresentAt vals b en id k := fun k hk =>
          hpr ⟨⟨k, hk.lo, hk.hi, Nat.le_of_eq hk.val.symm⟩, hk.strict⟩
        obtain ⟨r, e', q, g1, g2, g3⟩ := a.find_sound h hu hj (b := b) (en := en) (id := id) (by omega) o2 hid o3 (by
          rcases o4 with o | o | o | o
          · omega
          · exact Or.inl o
          · exact Or.inr o
          · exact absurd o hpr)
        refine ⟨r, e', q, g1, g2, ?_, fun b' en' id' k heq hk => by cases heq; exact absurd hk (hpr' k)⟩
        show if b = en then _ else _
        rw [if_neg hb, if_neg hid]
        exact g3.imp (fun g => g) Or.inl

theorem SInv.step {off u cu : Nat} (h : SHolds f vals ps off u cu) {e : PEnum} (a : SInv f vals ps off u cu e)
    {junkU junkD : List W} (hj : junkD ≠ []) {op : Op} (hop : op.Ok vals ps) :
    ∃ r e', op.run f junkU junkD e = some (r, e') ∧ SInv f vals ps off u cu e' ∧ op.Answer vals ps r ∧
      (FirstOcc vals e → (∃ b en id, op = .find b en id) → FirstOcc vals e') ∧
      (∀ b en id k, op = .find b en id → PresentAt vals b en id k →
        (2 ≤ vals.length → vals.getD (vals.length - 1) 0 = vals.getD 0 0 → vals.getD 0 0 = 0) →
        (b ≠ 0 ∨ FirstOcc vals e) → r = k) := by
  cases op with
  | access i =>
    obtain ⟨v, e', g1, g2, -, -, g3⟩ := a.move h (junkU := junkU) hj (i := i) (Nat.le_of_lt hop)
    refine ⟨v, e', g1, g2, ?_, (fun _ hx => by obtain ⟨b, en, id, hk⟩ := hx; cases hk), fun b en id k hk => by cases hk⟩
    rw [g3, if_pos (show i < vals.length from hop)]
    rfl
  | find b en id =>
    obtain ⟨o1, o2, o3, -⟩ := hop
    by_cases ht : b = en ∨ id = 0
    · refine ⟨_, e, find_trivial ht, a, ?_, fun hf _ => hf, ?_⟩
      · show if b = en then _ else _
        split
        · rfl
        · next hb => rw [if_pos (ht.resolve_left hb)]
      · intro b' en' id' k heq hk _ _
        cases heq
        have h1 := hk.lo; have h2 := hk.hi
        rcases ht with ht | ht
        · omega
        · subst ht
          rw [if_neg (by omega)]
          exact (hk.zero h.sorted).symm
    · have hb : b ≠ en := fun x => ht (Or.inl x)
      have hid : id ≠ 0 := fun x => ht (Or.inr x)
      obtain ⟨r, e', g1, g2, g3, g4, g5⟩ := a.find_spec h (junkU := junkU) hj (b := b) (en := en) (id := id) (by omega) o2 hid o3
      refine ⟨r, e', g1, g2, ?_, fun hf _ => g3 hf, ?_⟩
      · show if b = en then _ else _
        rw [if_neg hb, if_neg hid]
        rcases g4 with g | ⟨gu, g⟩ | g
        · exact Or.inl g
        · rcases h.kind with ⟨hk, -⟩ | ⟨k1, k2, -⟩
          · omega
          · exact Or.inr (Or.inr ⟨g, k1, h.nps, k2⟩)
        · exact Or.inr (Or.inl g)
      · intro b' en' id' k heq hk hne hf
        cases heq
        refine g5 ?_ (hf.symm) k hk.lo hk.hi hk.val hk.strict
        intro hu
        rcases h.kind with ⟨hk, -⟩ | ⟨k1, k2, -⟩
        · omega
        · have h0 := hne k1 k2
          have := EF.sorted_getD h.sorted (show k ≤ vals.length - 1 by have := hk.hi; omega) (by omega)
          have := hk.val
          omega

/-- The conclusion of `Good.step`. -/
structure Step (f : PEF) (vals : List Nat) (ps : Nat) (e : PEnum) (op : Op) (r : Nat) (e' : PEnum) : Prop where
  good : Good f vals ps e'
  answer : op.Answer vals ps r
  fresh : Fresh f vals ps e → (∃ b en id, op = .find b en id) → Fresh f vals ps e'
  present : ∀ b en id k, op = .find b en id → PresentAt vals b en id k →
    (vals.length ≤ ps → 2 ≤ vals.length → vals.getD (vals.length - 1) 0 = vals.getD 0 0 → vals.getD 0 0 = 0) →
    (ps < vals.length ∨ b ≠ 0 ∨ Fresh f vals ps e) → r = k

theorem Good.step {e : PEnum} (a : Good f vals ps e) {junkU junkD : List W} (hu : junkU ≠ [])
    (hj : junkD ≠ []) {op : Op} (hop : op.Ok vals ps) : ∃ r e', op.run f junkU junkD e = some (r, e') ∧ Step f vals ps e op r e' := by
  rcases a with ⟨so, eo, eb, E, p, h, a⟩ | ⟨off, u, cu, h, a⟩
  · obtain ⟨r, e', q, g1, g2, g3, g4⟩ := At.step h a hu hj hop
    exact ⟨r, e', g1, Or.inl ⟨so, eo, eb, E, q, h, g2⟩, g3, fun _ _ => Or.inl ⟨so, eo, eb, E, q, h, g2⟩,
      fun b en id k h1 h2 _ _ => g4 b en id k h1 h2⟩
  · by_cases hf : Fresh f vals ps e
    · rcases hf with ⟨so, eo, eb, E, p, h', -⟩ | ⟨off, u, cu, h, a, ho⟩
      · exact absurd h'.parts (by rw [h.parts]; omega)
      · obtain ⟨r, e', g1, g2, g3, g4, g5⟩ := SInv.step h a (junkU := junkU) hj hop
        exact ⟨r, e', g1, Or.inr ⟨off, u, cu, h, g2⟩, g3, fun _ hfo => Or.inr ⟨off, u, cu, h, g2, g4 ho hfo⟩,
          fun b en id k h1 h2 h3 _ => g5 b en id k h1 h2 (h3 h.nps) (Or.inr ho)⟩
    · obtain ⟨r, e', g1, g2, g3, g4, g5⟩ := SInv.step h a (junkU := junkU) hj hop
      refine ⟨r, e', g1, Or.inr ⟨off, u, cu, h, g2⟩, g3, fun hx => absurd hx hf, fun b en id k h1 h2 h3 h4 => ?_⟩
      have := h.nps
      exact g5 b en id k h1 h2 (h3 h.nps) (Or.inl (by rcases h4 with h4 | h4 | h4; omega; exact h4; exact absurd h4 hf))

theorem Good.run {junkU junkD : List W} (hu : junkU ≠ []) (hj : junkD ≠ []) : ∀ (ops : List Op) (e : PEnum), Good f vals ps e →
    (∀ op ∈ ops, op.Ok vals ps) →
    ∃ rs e', runFrom f junkU junkD e ops = some (rs, e') ∧ rs.length = ops.length ∧ Good f vals ps e' ∧
      (Fresh f vals ps e → (∀ op ∈ ops, ∃ b en id, op = .find b en id) → Fresh f vals ps e') ∧
      (∀ (i : Nat) (op : Op) (r : Nat), ops[i]? = some op → rs[i]? = some r → op.Answer vals ps r) ∧
      (∀ i b en id k r, ops[i]? = some (.find b en id) → rs[i]? = some r → PresentAt vals b en id k →
        (vals.length ≤ ps → 2 ≤ vals.length → vals.getD (vals.length - 1) 0 = vals.getD 0 0 → vals.getD 0 0 = 0) →
        (ps < vals.length ∨ b ≠ 0 ∨ (Fresh f vals ps e ∧ ∀ op ∈ ops.take i, ∃ b en id, op = .find b en id)) → r = k) := by
  intro ops
  induction ops with
  | nil => intro e a _; exact ⟨[], e, rfl, rfl, a, fun hf _ => hf, by simp, by simp⟩
  | cons op ops ih =>
    intro e a hok
    obtain ⟨r, e1, s1, st⟩ := a.step hu hj (hok op (by simp))
    obtain ⟨rs, e', t1, t2, t3, t4, t5, t6⟩ := ih e1 st.good (fun o ho => hok o (by simp [ho]))
    refine ⟨r :: rs, e', by rw [runFrom, s1, Option.bind_some, t1, Option.map_some], by simp [t2], t3,
      fun hf hall => t4 (st.fresh hf (hall op (by simp))) (fun o ho => hall o (by simp [ho])), ?_, ?_⟩
    · intro i op' r' h1 h2
      cases i with
      | zero => simp only [List.getElem?_cons_zero, Option.some.injEq] at h1 h2; subst h1; subst h2; exact st.answer
      | succ i => exact t5 i op' r' (by simpa using h1) (by simpa using h2)
    · intro i b en id k r' h1 h2 hk hne hc
      cases i with
      | zero =>
        simp only [List.getElem?_cons_zero, Option.some.injEq] at h1 h2; subst h1; subst h2
        exact st.present b en id k rfl hk hne (by rcases hc with hc | hc | hc; exact Or.inl hc; exact Or.inr (Or.inl hc); exact Or.inr (Or.inr hc.1))
      | succ i =>
        refine t6 i b en id k r' (by simpa using h1) (by simpa using h2) hk hne ?_
        rcases hc with hc | hc | ⟨hf, hc⟩
        · exact Or.inl hc
        · exact Or.inr (Or.inl hc)
        · refine Or.inr (Or.inr ⟨st.fresh hf (hc op (by simp)), fun o ho => hc o (by simp [ho])⟩)

end

/-- What a built sequence answers to any session of valid operations. -/
theorem Built.session {f : PEF} {vals : List Nat} {ps : Nat} (h : Built f vals ps) {junkU junkD : List W} (hu : junkU ≠ [])
    (hj : junkD ≠ []) {ops : List Op} (hok : ∀ op ∈ ops, op.Ok vals ps) :
    ∃ rs, f.session junkU junkD ops = some rs ∧ rs.length = ops.length ∧
      (∀ (i : Nat) (op : Op) (r : Nat), ops[i]? = some op → rs[i]? = some r → op.Answer vals ps r) ∧
      (∀ i b en id k r, ops[i]? = some (.find b en id) → rs[i]? = some r → PresentAt vals b en id k →
        (vals.length ≤ ps → 2 ≤ vals.length → vals.getD (vals.length - 1) 0 = vals.getD 0 0 → vals.getD 0 0 = 0) →
        (ps < vals.length ∨ b ≠ 0 ∨ ∀ op ∈ ops.take i, ∃ b en id, op = .find b en id) → r = k) := by
  obtain ⟨e, e1, hf⟩ := h.init hu hj
  obtain ⟨rs, e', t1, t2, -, -, t5, t6⟩ := Good.run hu hj ops e hf.good hok
  refine ⟨rs, by unfold PEF.session; rw [e1, Option.bind_some, t1, Option.map_some], t2, t5, ?_⟩
  intro i b en id k r h1 h2 h3 h4 h5
  exact t6 i b en id k r h1 h2 h3 h4 (by
    rcases h5 with h5 | h5 | h5
    · exact Or.inl h5
    · exact Or.inr (Or.inl h5)
    · exact Or.inr (Or.inr ⟨hf, h5⟩))

theorem build_ok {grams ptrs : List Nat} {order : Nat} (hne : grams ≠ []) (hp : Spec.Pointers ptrs grams.length)
    (hr : Spec.RangeSorted grams ptrs) (hb : ∀ v ∈ Spec.absVals grams ptrs [], v < 2 ^ 57) (hn : grams.length < 2 ^ 56)
    (hd : grams.length ≤ 2 ^ logPartOf order → (Spec.absVals grams ptrs []).getD (grams.length - 1) 0 < 2 ^ 31 - 1) :
    ∃ f, build grams ptrs order = some (.ok f) ∧ f.size = grams.length ∧
      Built f (Spec.absVals grams ptrs []) (2 ^ logPartOf order) ∧ Sized f (Spec.absVals grams ptrs []) := by
  have hg := FastEF.absVals_grouped hp
  have hl := hg.length
  have hs := FastEF.grouped_sorted hp hg hr
  have h0 : 0 < grams.length := List.length_pos_iff.2 hne
  obtain ⟨f, w1, w2, w3, w4⟩ := write_ok (order := order) hs hb (by omega) (by omega) (by rw [hl]; intro h; have := hd h; omega)
  refine ⟨f, ?_, by omega, w3, w4⟩
  unfold build
  rw [FastEF.groupVals_spec hne hp hg (fun v hv => by have := hb v hv; omega)]
  show Res.bind (Res.lift (Spec.absVals grams ptrs []).getLast?) _ = _
  have : (Spec.absVals grams ptrs []).getLast? = some ((Spec.absVals grams ptrs []).getD ((Spec.absVals grams ptrs []).length - 1) 0) := by
    rw [List.getLast?_eq_getElem?, List.getD_eq_getElem?_getD, List.getElem?_eq_getElem (by omega)]; rfl
  rw [this]
  exact w1

end PEF

/-- Ids strictly increase within each range. -/
def Spec.RangeStrict (grams ptrs : List Nat) : Prop :=
  ∀ j b e, ptrs[j]? = some b → ptrs[j + 1]? = some e → ∀ i k, b ≤ i → i < k → k < e → grams.getD i 0 < grams.getD k 0

theorem Spec.RangeStrict.sorted {grams ptrs : List Nat} (h : Spec.RangeStrict grams ptrs) : Spec.RangeSorted grams ptrs :=
  fun j b e h1 h2 i i1 i2 => Nat.le_of_lt (h j b e h1 h2 i (i + 1) i1 (by omega) i2)

open PEF in
/-- C17: a `uniform_pef_sequence` built over non-empty grams that do not decrease within each range, with absolute
values below 2^57, fewer than 2^56 of them, and values below 2^31-1 if the sequence is a single partition (see
`C17_single_partition_int_truncation_defect`), answers every `operator[](i)` with the `i`-th absolute value, whatever
valid accesses and searches were made before on the same object; no operation of the session reads out of bounds.
`junkU`, `junkD` are the memory after the two arrays. -/
theorem C17_access_exact_for_every_history {grams ptrs : List Nat} {order : Nat} (hne : grams ≠ [])
    (hp : Spec.Pointers ptrs grams.length) (hr : Spec.RangeSorted grams ptrs)
    (hb : ∀ v ∈ Spec.absVals grams ptrs [], v < 2 ^ 57) (hn : grams.length < 2 ^ 56)
    (hd : grams.length ≤ 2 ^ logPartOf order → (Spec.absVals grams ptrs []).getD (grams.length - 1) 0 < 2 ^ 31 - 1) :
    ∃ f, PEF.build grams ptrs order = some (.ok f) ∧ f.size = grams.length ∧
      ∀ (junkU junkD : List W), junkU ≠ [] → junkD ≠ [] → ∀ ops : List Op,
        (∀ op ∈ ops, op.Ok (Spec.absVals grams ptrs []) (2 ^ logPartOf order)) →
        ∃ rs, f.session junkU junkD ops = some rs ∧ rs.length = ops.length ∧
          ∀ (k i : Nat), ops[k]? = some (.access i) → rs[k]? = some ((Spec.absVals grams ptrs []).getD i 0) := by
  obtain ⟨f, f1, f2, f3, -⟩ := build_ok (order := order) hne hp hr hb hn hd
  refine ⟨f, f1, f2, fun junkU junkD hu hj ops hok => ?_⟩
  obtain ⟨rs, r1, r2, r3, -⟩ := f3.session hu hj hok
  refine ⟨rs, r1, r2, fun k i hk => ?_⟩
  have hlt : k < rs.length := by
    rw [r2]; exact (List.getElem?_eq_some_iff.1 hk).1
  have := r3 k _ rs[k] hk (List.getElem?_eq_getElem hlt)
  rw [List.getElem?_eq_getElem hlt]
  exact congrArg some this

/-- The pointers delimit ranges inside the grams. -/
theorem Spec.Pointers.range_le {ptrs : List Nat} {n j e : Nat} (hp : Spec.Pointers ptrs n) (h2 : ptrs[j]? = some e) : e ≤ n := by
  have hl := hp.last
  rw [List.getLast?_eq_getElem?] at hl
  obtain ⟨hj, rfl⟩ := List.getElem?_eq_some_iff.1 h2
  rw [List.getElem?_eq_getElem (by omega), Option.some.injEq] at hl
  rcases Nat.eq_or_lt_of_le (show j ≤ ptrs.length - 1 by omega) with h3 | h3
  · rw [← hl]; simp only [h3]; exact Nat.le_refl _
  · have := List.pairwise_iff_getElem.1 hp.sorted _ _ hj (by omega) h3; omega

namespace PEF

/-- A gram of the `j`-th range is present at its position. -/
theorem presentAt_of {grams ptrs : List Nat} (hp : Spec.Pointers ptrs grams.length) (hr : Spec.RangeStrict grams ptrs)
    {j b e k : Nat} (h1 : ptrs[j]? = some b) (h2 : ptrs[j + 1]? = some e) (hk1 : b ≤ k) (hk2 : k < e) :
    PresentAt (Spec.absVals grams ptrs []) b e (grams.getD k 0) k := by
  have hg := FastEF.absVals_grouped hp
  refine ⟨hk1, hk2, by rw [hg.length]; exact hp.range_le h2, by rw [hg.val j b e h1 h2 k hk1 hk2, Nat.add_comm], ?_⟩
  intro i i' i1 i2 i3
  rw [hg.val j b e h1 h2 i i1 (by omega), hg.val j b e h1 h2 i' (by omega) i3]
  have := hr j b e h1 h2 i i' i1 i2 i3
  omega

/-- A search of an operation list is over one of the ranges of `ptrs`, for an id whose sum with the value before the
range stays below the not-found value; an id greater than all those of the last range is not searched when the last of
several partitions is full. -/
def SearchOk (grams ptrs : List Nat) (ps : Nat) (b e id : Nat) : Prop :=
  ∃ j, ptrs[j]? = some b ∧ ptrs[j + 1]? = some e ∧ Spec.before (Spec.absVals grams ptrs []) b + id < NF ∧
    (grams.length ≤ ps ∨ e < grams.length ∨ ¬ ps ∣ grams.length ∨ ∃ k, b ≤ k ∧ k < e ∧ id ≤ grams.getD k 0)

theorem SearchOk.ok {grams ptrs : List Nat} {ps b e id : Nat} (hp : Spec.Pointers ptrs grams.length) (hr : Spec.RangeStrict grams ptrs)
    (h : SearchOk grams ptrs ps b e id) : (Op.find b e id).Ok (Spec.absVals grams ptrs []) ps := by
  obtain ⟨j, h1, h2, h3, h4⟩ := h
  have hg := FastEF.absVals_grouped hp
  have hbe : b ≤ e := by
    obtain ⟨q1, rfl⟩ := List.getElem?_eq_some_iff.1 h1
    obtain ⟨q2, rfl⟩ := List.getElem?_eq_some_iff.1 h2
    exact List.pairwise_iff_getElem.1 hp.sorted _ _ q1 q2 (by omega)
  refine ⟨hbe, by rw [hg.length]; exact hp.range_le h2, h3, ?_⟩
  rw [hg.length]
  rcases h4 with h | h | h | ⟨k, k1, k2, k3⟩
  · exact Or.inl h
  · exact Or.inr (Or.inl h)
  · exact Or.inr (Or.inr (Or.inl h))
  · have := presentAt_of hp hr h1 h2 k1 k2
    exact Or.inr (Or.inr (Or.inr ⟨⟨k, k1, k2, by rw [this.val]; omega⟩, this.strict⟩))

end PEF

open PEF in
/-- C18: on a `uniform_pef_sequence` built as in C17 from ids that strictly increase within each range, after any list
of searches over its ranges (for ids present or absent), a search for an id that is in the range returns its position;
one for an id that is not returns not-found if the range has a greater id, and otherwise not-found or a position outside the
range (or `b` if the id is 0, see `C18_zero_always_found_defect`).
The one excluded input is a single partition of two values or more that are all equal and not zero
(`C18_equal_values_not_found_defect`). -/
theorem C18_find_after_searches {grams ptrs : List Nat} {order : Nat} (hne : grams ≠ [])
    (hp : Spec.Pointers ptrs grams.length) (hr : Spec.RangeStrict grams ptrs)
    (hb : ∀ v ∈ Spec.absVals grams ptrs [], v < 2 ^ 57) (hn : grams.length < 2 ^ 56)
    (hd : grams.length ≤ 2 ^ logPartOf order → (Spec.absVals grams ptrs []).getD (grams.length - 1) 0 < 2 ^ 31 - 1)
    (heq : grams.length ≤ 2 ^ logPartOf order → 2 ≤ grams.length → grams.getD 0 0 ≠ 0 → ∃ k, 0 < k ∧ k < grams.length ∧ grams.getD k 0 ≠ 0) :
    ∃ f, PEF.build grams ptrs order = some (.ok f) ∧
      ∀ (junkU junkD : List W), junkU ≠ [] → junkD ≠ [] → ∀ qs : List (Nat × Nat × Nat),
        (∀ q ∈ qs, SearchOk grams ptrs (2 ^ logPartOf order) q.1 q.2.1 q.2.2) →
        ∃ rs, f.session junkU junkD (qs.map fun q => .find q.1 q.2.1 q.2.2) = some rs ∧ rs.length = qs.length ∧
          ∀ (i b e id r : Nat), qs[i]? = some (b, e, id) → rs[i]? = some r →
            (∀ k, b ≤ k → k < e → grams.getD k 0 = id → r = k) ∧
            (id ≠ 0 → (∀ k, b ≤ k → k < e → grams.getD k 0 ≠ id) →
              r = NF ∨ (∀ k, b ≤ k → k < e → grams.getD k 0 < id) ∧ e ≤ r ∧ r ≤ grams.length) := by
  obtain ⟨f, f1, f2, f3, -⟩ := build_ok (order := order) hne hp hr.sorted hb hn hd
  have hg := FastEF.absVals_grouped hp
  have hl := hg.length
  have hs := FastEF.grouped_sorted hp hg hr.sorted
  refine ⟨f, f1, fun junkU junkD hu hj qs hok => ?_⟩
  obtain ⟨rs, r1, r2, r3, r4⟩ := f3.session hu hj (ops := qs.map fun q => .find q.1 q.2.1 q.2.2) (by
    intro op hop
    obtain ⟨q, hq, rfl⟩ := List.mem_map.1 hop
    exact (hok q hq).ok hp hr)
  rw [List.length_map] at r2
  refine ⟨rs, r1, r2, fun i b e id r hi hri => ?_⟩
  obtain ⟨j, h1, h2, h3, -⟩ := hok _ (List.mem_of_getElem? hi)
  have hop : (qs.map fun q => Op.find q.1 q.2.1 q.2.2)[i]? = some (.find b e id) := by rw [List.getElem?_map, hi]; rfl
  have hen := hp.range_le h2
  have habs0 : grams.length ≤ 2 ^ logPartOf order → 2 ≤ grams.length →
      (Spec.absVals grams ptrs []).getD (grams.length - 1) 0 = (Spec.absVals grams ptrs []).getD 0 0 → (Spec.absVals grams ptrs []).getD 0 0 = 0 := by
    intro hle h2' hall
    apply Classical.byContradiction
    intro hz
    have h00 : (Spec.absVals grams ptrs []).getD 0 0 = grams.getD 0 0 := by
      obtain ⟨j', b', e', g1, g2, g3, g4⟩ := FastEF.exists_range hp (show 0 < grams.length by omega)
      rw [hg.val j' b' e' g1 g2 0 g3 g4, show b' = 0 by omega]
      unfold Spec.before; rw [if_pos rfl]; omega
    obtain ⟨m, m0, m1, m2⟩ := heq hle h2' (by omega)
    obtain ⟨j', b', e', g1, g2, g3, g4⟩ := FastEF.exists_range hp m1
    have hv := hg.val j' b' e' g1 g2 m g3 g4
    have ha := EF.sorted_getD hs (show m ≤ grams.length - 1 by omega) (by omega)
    by_cases hb' : b' = 0
    · subst hb'
      have := hr j' 0 e' g1 g2 0 m (by omega) m0 g4
      unfold Spec.before at hv; rw [if_pos rfl] at hv
      omega
    · unfold Spec.before at hv; rw [if_neg hb'] at hv
      have := EF.sorted_getD hs (Nat.zero_le (b' - 1)) (by omega)
      omega
  refine ⟨fun k k1 k2 hk => ?_, fun hid habs => ?_⟩
  · subst hk
    refine r4 i b e _ k r hop hri (presentAt_of hp hr h1 h2 k1 k2) ?_ (Or.inr (Or.inr ?_))
    · rw [hl]; exact habs0
    · intro op hop'
      obtain ⟨q, -, rfl⟩ := List.mem_map.1 (List.mem_of_mem_take hop')
      exact ⟨_, _, _, rfl⟩
  · have ha := r3 i _ r hop hri
    simp only [Op.Answer] at ha
    by_cases hbe : b = e
    · rw [if_pos hbe] at ha; exact Or.inl ha
    · rw [if_neg hbe, if_neg hid] at ha
      rcases ha with ha | ⟨a1, a2, a3⟩ | ⟨a1, a2, a3, a4⟩
      · exact Or.inl ha
      · right
        have her : e ≤ r := by
          apply Nat.le_of_not_lt
          intro hlt
          apply habs r a1 hlt
          have := hg.val j b e h1 h2 r a1 hlt
          omega
        refine ⟨fun k k1 k2 => ?_, her, by omega⟩
        have h5 := hg.val j b e h1 h2 k k1 k2
        have h6 := EF.sorted_getD hs (show k ≤ r by omega) (by omega)
        have h7 := habs k k1 k2
        omega
      · right
        have hen' : e ≤ grams.length := hen
        refine ⟨fun k k1 k2 => ?_, by omega⟩
        rw [hl] at a2 a3 a4
        have hz := habs0 a3 a2 a4
        have h5 := hg.val j b e h1 h2 k k1 k2
        have h6 := EF.sorted_getD hs (show k ≤ grams.length - 1 by omega) (by omega)
        omega

open PEF in
/-- C18, after any mix of accesses and searches: the same for a range that does not begin at position 0, and for all
ranges of a sequence of more than one partition. (For the first range of a single partition see
`C18_find_after_access_defect`.) -/
theorem C18_find_after_any_history {grams ptrs : List Nat} {order : Nat} (hne : grams ≠ [])
    (hp : Spec.Pointers ptrs grams.length) (hr : Spec.RangeStrict grams ptrs)
    (hb : ∀ v ∈ Spec.absVals grams ptrs [], v < 2 ^ 57) (hn : grams.length < 2 ^ 56)
    (hd : grams.length ≤ 2 ^ logPartOf order → (Spec.absVals grams ptrs []).getD (grams.length - 1) 0 < 2 ^ 31 - 1)
    (heq : grams.length ≤ 2 ^ logPartOf order →
      (Spec.absVals grams ptrs []).getD 0 0 < (Spec.absVals grams ptrs []).getD (grams.length - 1) 0) :
    ∃ f, PEF.build grams ptrs order = some (.ok f) ∧
      ∀ (junkU junkD : List W), junkU ≠ [] → junkD ≠ [] → ∀ ops : List Op,
        (∀ op ∈ ops, (∃ i, op = .access i ∧ i < grams.length) ∨
          (∃ b e id, op = .find b e id ∧ SearchOk grams ptrs (2 ^ logPartOf order) b e id)) →
        ∃ rs, f.session junkU junkD ops = some rs ∧ rs.length = ops.length ∧
          ∀ (i b e id r : Nat), ops[i]? = some (.find b e id) → rs[i]? = some r →
            b ≠ 0 ∨ 2 ^ logPartOf order < grams.length → ∀ k, b ≤ k → k < e → grams.getD k 0 = id → r = k := by
  obtain ⟨f, f1, f2, f3, -⟩ := build_ok (order := order) hne hp hr.sorted hb hn hd
  have hg := FastEF.absVals_grouped hp
  have hl := hg.length
  refine ⟨f, f1, fun junkU junkD hu hj ops hok => ?_⟩
  obtain ⟨rs, r1, r2, r3, r4⟩ := f3.session hu hj (ops := ops) (by
    intro op hop
    rcases hok op hop with ⟨i, rfl, hi⟩ | ⟨b, e, id, rfl, h⟩
    · show i < _; omega
    · exact h.ok hp hr)
  refine ⟨rs, r1, r2, fun i b e id r hi hri hc k k1 k2 hk => ?_⟩
  rcases hok _ (List.mem_of_getElem? hi) with ⟨i', hx, -⟩ | ⟨b', e', id', hx, j, h1, h2, h3, -⟩
  · cases hx
  · cases hx
    subst hk
    refine r4 i b e _ k r hi hri (presentAt_of hp hr h1 h2 k1 k2) ?_ ?_
    · rw [hl]; intro h' _ h''; have := heq h'; omega
    · rcases hc with hc | hc
      · exact Or.inr (Or.inl hc)
      · exact Or.inl (by omega)

namespace PEF

/-- A check of `Spec.RangeStrict` by computation, for the examples. -/
theorem ex_ranges {grams ptrs : List Nat}
    (h : ((List.range ptrs.length).all fun j => (List.range grams.length).all fun k =>
      !(decide (ptrs.getD j 0 ≤ k) && decide (k + 1 < ptrs.getD (j + 1) 0)) || decide (grams.getD k 0 < grams.getD (k + 1) 0)) = true)
    (hp : Spec.Pointers ptrs grams.length) : Spec.RangeStrict grams ptrs := by
  intro j b e h1 h2 i k i1 i2 i3
  have hj : j + 1 < ptrs.length := (List.getElem?_eq_some_iff.1 h2).1
  have hb : ptrs.getD j 0 = b := by rw [List.getD_eq_getElem?_getD, h1]; rfl
  have he : ptrs.getD (j + 1) 0 = e := by rw [List.getD_eq_getElem?_getD, h2]; rfl
  have hen := hp.range_le h2
  have hadj : ∀ m, b ≤ m → m + 1 < e → grams.getD m 0 < grams.getD (m + 1) 0 := by
    intro m m1 m2
    have := List.all_eq_true.1 (List.all_eq_true.1 h j (List.mem_range.2 (by omega))) m (List.mem_range.2 (by omega))
    rw [hb, he] at this
    simpa [m1, m2] using this
  induction k with
  | zero => omega
  | succ k ih =>
    have h3 := hadj k (by omega) i3
    rcases Nat.eq_or_lt_of_le (show i ≤ k by omega) with h4 | h4
    · subst h4; exact h3
    · have := ih h4 (by omega); omega

end PEF

/-- Non-vacuity of C17/C18, one partition: three ranges with a zero id and equal absolute values, and a session of valid
operations with present and absent ids. -/
example : Spec.Pointers [0, 2, 2, 5] 5 ∧ Spec.RangeStrict [3, 7, 0, 1, 4] [0, 2, 2, 5] ∧
    Spec.absVals [3, 7, 0, 1, 4] [0, 2, 2, 5] [] = [3, 7, 7, 8, 11] ∧
    PEF.SearchOk [3, 7, 0, 1, 4] [0, 2, 2, 5] 64 2 5 1 ∧ PEF.SearchOk [3, 7, 0, 1, 4] [0, 2, 2, 5] 64 2 5 9 ∧
    (PEF.Op.access 4).Ok [3, 7, 7, 8, 11] 64 := by
  have hp : Spec.Pointers [0, 2, 2, 5] 5 := ⟨rfl, by decide, rfl⟩
  exact ⟨hp, PEF.ex_ranges (by decide +kernel) hp, by decide, ⟨2, rfl, rfl, by decide, Or.inl (by decide)⟩,
    ⟨2, rfl, rfl, by decide, Or.inl (by decide)⟩, (by decide : 4 < 5)⟩

/-- Non-vacuity of C17/C18, several partitions: 300 ids in two ranges. -/
example : Spec.Pointers [0, 150, 300] 300 ∧ Spec.RangeStrict (List.range 150 ++ List.range 150) [0, 150, 300] ∧
    (∀ v ∈ Spec.absVals (List.range 150 ++ List.range 150) [0, 150, 300] [], v < 2 ^ 57) ∧ 2 ^ PEF.logPartOf 2 < 300 ∧
    PEF.SearchOk (List.range 150 ++ List.range 150) [0, 150, 300] 64 150 300 77 := by
  have hp : Spec.Pointers [0, 150, 300] 300 := ⟨rfl, by decide, rfl⟩
  have hl : (List.range 150 ++ List.range 150).length = 300 := by simp
  refine ⟨hp, PEF.ex_ranges (by decide +kernel) (by rw [hl]; exact hp), by decide +kernel, by decide,
    ⟨1, rfl, rfl, by decide +kernel, Or.inr (Or.inr (Or.inl (by rw [hl]; decide)))⟩⟩

/-- The answers of the model on the examples. -/
example : (Option.bind (PEF.build [3, 7, 0, 1, 4] [0, 2, 2, 5] 2) fun
    | .ok f => f.session [0] [0] [.access 4, .find 2 5 1, .access 0, .find 0 2 7, .find 2 5 9]
    | .error () => none) = some [11, 3, 3, 1, NF] := by decide +kernel

/-- C18, defect: the id 0 is reported at the beginning of any non-empty range, present or not. -/
theorem C18_zero_always_found_defect : (Option.bind (PEF.build [3, 7] [0, 2] 2) fun
    | .ok f => f.session [0] [0] [.find 0 2 0]
    | .error () => none) = some [0] := by decide +kernel

/-- C18, defect: in one partition of two or more equal non-zero values (5, 5, 5: the ranges {5}, {0}, {0}) the present id 5
of the first range is reported at position 3, past the end of the sequence. -/
theorem C18_equal_values_not_found_defect : (Option.bind (PEF.build [5, 0, 0] [0, 1, 2, 3] 2) fun
    | .ok f => f.session [0] [0] [.find 0 1 5]
    | .error () => none) = some [3] := by decide +kernel

/-- C18, defect: after `operator[](2)` the present id 5 of the first range {0, 5} is reported at position 2, which is in
the next range {0, 3}; without the access it is reported at its position 1. -/
theorem C18_find_after_access_defect : (Option.bind (PEF.build [0, 5, 0, 3] [0, 2, 4] 2) fun
    | .ok f => (f.session [0] [0] [.access 2, .find 0 2 5]).bind fun r => (f.session [0] [0] [.find 0 2 5]).map fun s => (r, s)
    | .error () => none) = some ([5, 2], [1]) := by decide +kernel

/-- C18, defect: the id 4 absent from the range {1, 3} is reported at position 2 of the next range. -/
theorem C18_absent_found_outside_range_defect : (Option.bind (PEF.build [1, 3, 1, 2] [0, 2, 4] 2) fun
    | .ok f => f.session [0] [0] [.find 0 2 4]
    | .error () => none) = some [2] := by decide +kernel

/-- C18, defect: the search of an id beyond all values over a range that ends with the sequence, whose 192 values are
three full partitions, reads the upper bounds at index 4; there are four, at 0..3. (The arguments are those `find` passes: `partition_begin` = 0 + 1,
`partition_end` = 192 / 64 + 1.) -/
theorem C18_absent_reads_past_upper_bounds_defect :
    (Option.bind (PEF.build (List.range 192) [0, 192] 2) fun
      | .ok f => some (f.upper.size, (List.range 4).map fun i => (f.upper.access [0] i).map BitVec.toNat)
      | .error () => none) = some (4, [some 0, some 63, some 127, some 191]) ∧
    PEF.bsearch (fun i => [0, 63, 127, 191][i]?) 1000 3 (0 + 1) (192 / 64 + 1) = none := by
  constructor <;> decide +kernel

/-- C17, defect: in one partition whose values span 2^31 or more the universe is truncated to a 32-bit `int`; the third of
the values 0, 7, 2^32+5 is read back as 8. -/
theorem C17_single_partition_int_truncation_defect : (Option.bind (PEF.build [0, 7, 2 ^ 32 + 5] [0, 3] 2) fun
    | .ok f => f.session [0] [0] [.access 0, .access 1, .access 2]
    | .error () => none) = some [0, 0, 8] := by decide +kernel

end Tongrams
