import Verif.BitIter

/-!
# include/sequences/integer_codes.hpp and include/vectors/compact_triplets_vector.hpp
-/

namespace Tongrams
open BitVector

/-! ## Gamma and delta codes -/

/-- `write_gamma(bvb, n)`, integer_codes.hpp:9-15. A shift by `msb(0) = 255` is undefined. -/
def writeGamma (b : BVBuilder) (n : W) : Option BVBuilder :=
  let nn := n + 1#64
  let l := msb nn
  if l ≥ 64 then none
  else do
    let hb := 1#64 <<< l
    let b ← b.appendBits hb (l + 1)
    b.appendBits (nn ^^^ hb) l

/-- `write_gamma_nonzero(bvb, n)`, integer_codes.hpp:17-20. -/
def writeGammaNonzero (b : BVBuilder) (n : W) : Option BVBuilder := writeGamma b (n - 1#64)

/-- `read_gamma(it)`, integer_codes.hpp:22-25. -/
def readGamma (it : BitsIter) : Option (W × BitsIter) := do
  let (l, it) ← it.skipZeros
  if l ≥ 64 then none
  else do
    let (x, it) ← it.getBits l
    return ((x ||| (1#64 <<< l)) - 1#64, it)

/-- `read_gamma_nonzero(it)`, integer_codes.hpp:27-29. -/
def readGammaNonzero (it : BitsIter) : Option (W × BitsIter) := do
  let (x, it) ← readGamma it
  return (x + 1#64, it)

/-- `write_delta(bvb, n)`, integer_codes.hpp:31-37. -/
def writeDelta (b : BVBuilder) (n : W) : Option BVBuilder :=
  let nn := n + 1#64
  let l := msb nn
  if l ≥ 64 then none
  else do
    let hb := 1#64 <<< l
    let b ← writeGamma b (BitVec.ofNat 64 l)
    b.appendBits (nn ^^^ hb) l

/-- `read_delta(it)`, integer_codes.hpp:39-42. -/
def readDelta (it : BitsIter) : Option (W × BitsIter) := do
  let (l, it) ← readGamma it
  if l.toNat ≥ 64 then none
  else do
    let (x, it) ← it.getBits l.toNat
    return ((x ||| (1#64 <<< l.toNat)) - 1#64, it)

/-- the code words: `l` zeros, a one, the `l` low bits of `n + 1` -/
def gammaCode (n : W) : List Bool :=
  List.replicate (msb (n + 1#64)) false ++ true :: Spec.bitsOf (n + 1#64) (msb (n + 1#64))

def deltaCode (n : W) : List Bool :=
  gammaCode (BitVec.ofNat 64 (msb (n + 1#64))) ++ Spec.bitsOf (n + 1#64) (msb (n + 1#64))

/-- `l` is found in the words at `pos` -/
def HasAt (ws : List W) (pos : Nat) (l : List Bool) : Prop :=
  pos + l.length ≤ 64 * ws.length ∧ ∀ i, i < l.length → bitAt ws (pos + i) = l.getD i false

theorem HasAt.append {ws : List W} {pos : Nat} {l m : List Bool} (h : HasAt ws pos (l ++ m)) :
    HasAt ws pos l ∧ HasAt ws (pos + l.length) m := by
  obtain ⟨h1, h2⟩ := h
  rw [List.length_append] at h1 h2
  refine ⟨⟨by omega, fun i hi => ?_⟩, ⟨by omega, fun i hi => ?_⟩⟩
  · rw [h2 i (by omega), List.getD_eq_getElem?_getD, List.getElem?_append_left hi, List.getD_eq_getElem?_getD]
  · rw [Nat.add_assoc, h2 _ (by omega), List.getD_eq_getElem?_getD, List.getElem?_append_right (by omega),
      List.getD_eq_getElem?_getD]
    congr 2; omega

theorem nn_ne_zero {n : W} (h : n ≠ BitVec.allOnes 64) : n + 1#64 ≠ 0#64 := by
  intro e
  apply h
  have : n = 0#64 - 1#64 := by rw [← e, BitVec.add_sub_cancel]
  rw [this]; decide

theorem getLsbD_two_pow {l : Nat} (hl : l < 64) (j : Nat) : (1#64 <<< l).getLsbD j = decide (j = l) := by
  rw [BitVec.getLsbD_shiftLeft, getLsbD_one64]
  by_cases h1 : j < l
  · have : ¬ j = l := by omega
    simp [h1, this]
  · by_cases h2 : j = l
    · subst h2; simp [hl]
    · have : ¬ j - l = 0 := by omega
      simp [h2, this]

/-- the low bits: `nn ^ hb` -/
theorem xor_hb {x : W} (h : x ≠ 0#64) (j : Nat) :
    (x ^^^ (1#64 <<< msb x)).getLsbD j = (decide (j < msb x) && x.getLsbD j) := by
  have hb := msb_bit h
  rw [BitVec.getLsbD_xor, getLsbD_two_pow (msb_lt_64 h)]
  by_cases h1 : j < msb x
  · have : ¬ j = msb x := by omega
    simp [h1, this]
  · by_cases h2 : j = msb x
    · rw [h2, hb.1]; simp
    · rw [hb.2 j (by omega)]; simp [h2]

theorem bitsOf_congr {x y : W} {l : Nat} (h : ∀ j, j < l → x.getLsbD j = y.getLsbD j) :
    Spec.bitsOf x l = Spec.bitsOf y l := by
  unfold Spec.bitsOf
  apply List.map_congr_left
  intro j hj; exact h j (by simpa using hj)

theorem bitsOf_xor {x : W} (h : x ≠ 0#64) :
    Spec.bitsOf (x ^^^ (1#64 <<< msb x)) (msb x) = Spec.bitsOf x (msb x) := by
  apply bitsOf_congr
  intro j hj
  rw [xor_hb h]; simp [hj]

theorem xor_lt {x : W} (h : x ≠ 0#64) : (x ^^^ (1#64 <<< msb x)).toNat < 2 ^ msb x := by
  apply toNat_lt_of_bits
  intro j hj
  rw [xor_hb h]
  have : ¬ j < msb x := by omega
  simp [this]

theorem bitsOf_hb {l : Nat} (hl : l < 64) :
    Spec.bitsOf (1#64 <<< l) (l + 1) = List.replicate l false ++ [true] := by
  unfold Spec.bitsOf
  rw [List.range_succ, List.map_append]
  congr 1
  · apply List.eq_replicate_iff.2
    refine ⟨by simp, ?_⟩
    intro b hb
    obtain ⟨j, hj, rfl⟩ := List.mem_map.1 hb
    have : ¬ j = l := by have := List.mem_range.1 hj; omega
    rw [getLsbD_two_pow hl]; simp [this]
  · simp only [List.map_cons, List.map_nil]; rw [getLsbD_two_pow hl]; simp

theorem writeGamma_spec {b : BVBuilder} (h : b.WF) {n : W} (hn : n ≠ BitVec.allOnes 64) :
    ∃ b', writeGamma b n = some b' ∧ b'.WF ∧ b'.toBools = b.toBools ++ gammaCode n := by
  have hne := nn_ne_zero hn
  have hl := msb_lt_64 hne
  unfold writeGamma gammaCode
  simp only
  rw [if_neg (by omega)]
  have hbv : (1#64 <<< msb (n + 1#64)).toNat < 2 ^ (msb (n + 1#64) + 1) := by
    apply toNat_lt_of_bits; intro j hj
    rw [getLsbD_two_pow hl]
    have : ¬ j = msb (n + 1#64) := by omega
    simp [this]
  obtain ⟨b1, e1, w1, t1⟩ := BVBuilder.appendBits_wf h (len := msb (n + 1#64) + 1) (by omega) hbv
  obtain ⟨b2, e2, w2, t2⟩ := BVBuilder.appendBits_wf w1 (len := msb (n + 1#64)) (by omega) (xor_lt hne)
  refine ⟨b2, ?_, w2, ?_⟩
  · rw [e1, Option.bind_eq_bind, Option.bind_some, e2]
  · rw [t2, t1, bitsOf_xor hne, bitsOf_hb hl]; simp

theorem ofNat_msb_ne {x : W} (h : x ≠ 0#64) : BitVec.ofNat 64 (msb x) ≠ BitVec.allOnes 64 := by
  intro e
  have := congrArg BitVec.toNat e
  have hl := msb_lt_64 h
  rw [BitVec.toNat_ofNat, BitVec.toNat_allOnes] at this
  omega

theorem writeDelta_spec {b : BVBuilder} (h : b.WF) {n : W} (hn : n ≠ BitVec.allOnes 64) :
    ∃ b', writeDelta b n = some b' ∧ b'.WF ∧ b'.toBools = b.toBools ++ deltaCode n := by
  have hne := nn_ne_zero hn
  have hl := msb_lt_64 hne
  unfold writeDelta deltaCode
  simp only
  rw [if_neg (by omega)]
  obtain ⟨b1, e1, w1, t1⟩ := writeGamma_spec h (ofNat_msb_ne hne)
  obtain ⟨b2, e2, w2, t2⟩ := BVBuilder.appendBits_wf w1 (len := msb (n + 1#64)) (by omega) (xor_lt hne)
  refine ⟨b2, ?_, w2, ?_⟩
  · rw [e1, Option.bind_eq_bind, Option.bind_some, e2]
  · rw [t2, t1, bitsOf_xor hne]; simp

/-- reading the low bits and putting back the high one -/
theorem read_tail {it : BitsIter} (hc : it.Clean) {nn : W} (hne : nn ≠ 0#64)
    (h : HasAt it.ws it.pos (Spec.bitsOf nn (msb nn))) :
    ∃ x it', it.getBits (msb nn) = some (x, it') ∧ x ||| (1#64 <<< msb nn) = nn ∧
      it'.ws = it.ws ∧ it'.pos = it.pos + msb nn ∧ it'.Clean := by
  have hl := msb_lt_64 hne
  obtain ⟨h1, h2⟩ := h
  have hlen : (Spec.bitsOf nn (msb nn)).length = msb nn := by simp [Spec.bitsOf]
  rw [hlen] at h1 h2
  obtain ⟨x, it', e, hx, hw, hp, _, hcl⟩ := BitsIter.getBits_spec hc.toInv (len := msb nn) (by omega) h1
  refine ⟨x, it', e, ?_, hw, hp, hcl hc hl⟩
  apply BitVec.eq_of_getLsbD_eq
  intro j hj
  rw [BitVec.getLsbD_or, hx, getLsbD_two_pow hl]
  have hb := msb_bit hne
  by_cases h3 : j < msb nn
  · have : ¬ j = msb nn := by omega
    rw [h2 j h3]
    simp [h3, this, Spec.bitsOf, List.getD_eq_getElem?_getD]
  · by_cases h4 : j = msb nn
    · subst h4; rw [hb.1]; simp
    · rw [hb.2 j (by omega)]; simp [h3, h4]

theorem length_gammaCode (n : W) : (gammaCode n).length = 2 * msb (n + 1#64) + 1 := by
  simp [gammaCode, Spec.bitsOf]; omega

theorem readGamma_spec {it : BitsIter} (hc : it.Clean) {n : W} (hn : n ≠ BitVec.allOnes 64)
    (h : HasAt it.ws it.pos (gammaCode n)) :
    ∃ it', readGamma it = some (n, it') ∧ it'.ws = it.ws ∧ it'.pos = it.pos + (gammaCode n).length ∧
      it'.Clean := by
  have hne := nn_ne_zero hn
  have hl := msb_lt_64 hne
  have hsplit : gammaCode n = (List.replicate (msb (n + 1#64)) false ++ [true]) ++
      Spec.bitsOf (n + 1#64) (msb (n + 1#64)) := by simp [gammaCode]
  have hlen := length_gammaCode n
  rw [hsplit] at h
  obtain ⟨ha, hb⟩ := h.append
  have hq : bitAt it.ws (it.pos + msb (n + 1#64)) = true := by
    have := ha.2 (msb (n + 1#64)) (by simp)
    rw [this, List.getD_eq_getElem?_getD, List.getElem?_append_right (by simp)]; simp
  have hz : ∀ i, it.pos ≤ i → i < it.pos + msb (n + 1#64) → bitAt it.ws i = false := by
    intro i h1 h2
    have := ha.2 (i - it.pos) (by simp; omega)
    rw [show it.pos + (i - it.pos) = i by omega] at this
    rw [this, List.getD_eq_getElem?_getD, List.getElem?_append_left (by simp; omega), List.getElem?_replicate,
      if_pos (by omega)]; rfl
  obtain ⟨it1, e1, w1, p1, c1⟩ := BitsIter.skipZeros_spec hc hq (by omega) hz
  rw [show it.pos + msb (n + 1#64) - it.pos = msb (n + 1#64) by omega] at e1
  obtain ⟨x, it2, e2, hx, w2, p2, c2⟩ := read_tail (it := it1) c1 hne (by
    rw [w1, p1]
    rw [List.length_append, List.length_replicate, List.length_singleton, ← Nat.add_assoc] at hb
    exact hb)
  refine ⟨it2, ?_, by rw [w2, w1], ?_, c2⟩
  · unfold readGamma
    rw [e1]
    simp only [Option.bind_eq_bind, Option.bind_some]
    rw [if_neg (by omega), e2]
    simp only [Option.bind_some, Option.pure_def]
    rw [hx, BitVec.add_sub_cancel]
  · rw [p2, p1, hlen]; omega

theorem readDelta_spec {it : BitsIter} (hc : it.Clean) {n : W} (hn : n ≠ BitVec.allOnes 64)
    (h : HasAt it.ws it.pos (deltaCode n)) :
    ∃ it', readDelta it = some (n, it') ∧ it'.ws = it.ws ∧ it'.pos = it.pos + (deltaCode n).length ∧
      it'.Clean := by
  have hne := nn_ne_zero hn
  have hl := msb_lt_64 hne
  obtain ⟨ha, hb⟩ := HasAt.append h
  obtain ⟨it1, e1, w1, p1, c1⟩ := readGamma_spec hc (ofNat_msb_ne hne) ha
  obtain ⟨x, it2, e2, hx, w2, p2, c2⟩ := read_tail (it := it1) c1 hne (by rw [w1, p1]; exact hb)
  have hto : (BitVec.ofNat 64 (msb (n + 1#64))).toNat = msb (n + 1#64) := by
    rw [BitVec.toNat_ofNat]; omega
  refine ⟨it2, ?_, by rw [w2, w1], ?_, c2⟩
  · unfold readDelta
    rw [e1]
    simp only [Option.bind_eq_bind, Option.bind_some, hto]
    rw [if_neg (by omega), e2]
    simp only [Option.bind_some, Option.pure_def]
    rw [hx, BitVec.add_sub_cancel]
  · rw [p2, p1, Nat.add_assoc]; simp [deltaCode, Spec.bitsOf]

/-! ## compact_triplets_vector -/

/-- `compact_triplets_vector::builder`, members: compact_triplets_vector.hpp:71-75. -/
structure CTBuilder where
  size : Nat
  w1 : Nat
  w2 : Nat
  w3 : Nat
  bits : BVBuilder

/-- `compact_triplets_vector`, members: compact_triplets_vector.hpp:122-126. -/
structure CTVec where
  size : Nat
  w1 : Nat
  w2 : Nat
  w3 : Nat
  bits : BitVector

/-- `width(w)`, compact_triplets_vector.hpp:26-28. -/
def ctWidth (w : Nat) : Nat := if w = 0 then 1 else w

/-- Constructor, compact_triplets_vector.hpp:15-24; `check_width` (34-40) terminates above 64. -/
def CTBuilder.new (n w1 w2 w3 : Nat) : Option CTBuilder :=
  if ctWidth w1 > 64 ∨ ctWidth w2 > 64 ∨ ctWidth w3 > 64 then none
  else some { size := n, w1 := ctWidth w1, w2 := ctWidth w2, w3 := ctWidth w3,
              bits := BVBuilder.new (n * (ctWidth w1 + ctWidth w2 + ctWidth w3)) false }

/-- `set(i, triplet)`, compact_triplets_vector.hpp:42-49. -/
def CTBuilder.set (b : CTBuilder) (i : Nat) (t : W × W × W) : Option CTBuilder := do
  let pos := i * (b.w1 + b.w2 + b.w3)
  let bits ← b.bits.setBits pos t.1 b.w1
  let bits ← bits.setBits (pos + b.w1) t.2.1 b.w2
  let bits ← bits.setBits (pos + b.w1 + b.w2) t.2.2 b.w3
  return { b with bits := bits }

/-- `build`, compact_triplets_vector.hpp:51-58. -/
def CTBuilder.build (b : CTBuilder) : CTVec :=
  { size := b.size, w1 := b.w1, w2 := b.w2, w3 := b.w3, bits := BitVector.ofBuilder b.bits }

/-- `operator[]`, compact_triplets_vector.hpp:82-91. -/
def CTVec.get (v : CTVec) (i : Nat) : Option (W × W × W) := do
  let it := BitsIter.new v.bits.bits (i * (v.w1 + v.w2 + v.w3))
  let (a, it) ← it.getBits v.w1
  let (b, it) ← it.getBits v.w2
  let (c, _) ← it.getBits v.w3
  return (a, b, c)

/-- Specification: the builder's entries are the list `ts`. -/
structure CTBuilder.Holds (b : CTBuilder) (ts : List (W × W × W)) : Prop where
  wf : b.bits.WF
  size : b.size = ts.length
  bsize : b.bits.size = b.size * (b.w1 + b.w2 + b.w3)
  h1 : 1 ≤ b.w1 ∧ b.w1 ≤ 64
  h2 : 1 ≤ b.w2 ∧ b.w2 ≤ 64
  h3 : 1 ≤ b.w3 ∧ b.w3 ≤ 64
  fits : ∀ t ∈ ts, t.1.toNat < 2 ^ b.w1 ∧ t.2.1.toNat < 2 ^ b.w2 ∧ t.2.2.toNat < 2 ^ b.w3
  bits : ∀ i (h : i < ts.length),
    (∀ j, j < b.w1 → bitAt b.bits.bits (i * (b.w1 + b.w2 + b.w3) + j) = ts[i].1.getLsbD j) ∧
    (∀ j, j < b.w2 → bitAt b.bits.bits (i * (b.w1 + b.w2 + b.w3) + b.w1 + j) = ts[i].2.1.getLsbD j) ∧
    (∀ j, j < b.w3 → bitAt b.bits.bits (i * (b.w1 + b.w2 + b.w3) + b.w1 + b.w2 + j) = ts[i].2.2.getLsbD j)

theorem ctWidth_pos (w : Nat) : 1 ≤ ctWidth w := by unfold ctWidth; split <;> omega

theorem CTBuilder.new_holds {n w1 w2 w3 : Nat} (h1 : w1 ≤ 64) (h2 : w2 ≤ 64) (h3 : w3 ≤ 64) :
    ∃ b, CTBuilder.new n w1 w2 w3 = some b ∧ b.Holds (List.replicate n (0, 0, 0)) ∧
      b.w1 = ctWidth w1 ∧ b.w2 = ctWidth w2 ∧ b.w3 = ctWidth w3 := by
  have e1 : ctWidth w1 ≤ 64 := by unfold ctWidth; split <;> omega
  have e2 : ctWidth w2 ≤ 64 := by unfold ctWidth; split <;> omega
  have e3 : ctWidth w3 ≤ 64 := by unfold ctWidth; split <;> omega
  unfold CTBuilder.new
  rw [if_neg (by omega)]
  obtain ⟨hwf, htb⟩ := BVBuilder.new_wf (n * (ctWidth w1 + ctWidth w2 + ctWidth w3)) false
  have hsz : (BVBuilder.new (n * (ctWidth w1 + ctWidth w2 + ctWidth w3)) false).size =
      n * (ctWidth w1 + ctWidth w2 + ctWidth w3) := by
    rw [← BVBuilder.length_toBools, htb, List.length_replicate]
  have hbit : ∀ i, bitAt (BVBuilder.new (n * (ctWidth w1 + ctWidth w2 + ctWidth w3)) false).bits i = false := by
    intro i
    by_cases hi : i < n * (ctWidth w1 + ctWidth w2 + ctWidth w3)
    · have hi' : i < (BVBuilder.new (n * (ctWidth w1 + ctWidth w2 + ctWidth w3)) false).toBools.length := by
        rw [htb, List.length_replicate]; exact hi
      rw [← BVBuilder.getElem_toBools _ _ hi']
      have : ∀ b ∈ (BVBuilder.new (n * (ctWidth w1 + ctWidth w2 + ctWidth w3)) false).toBools, b = false := by
        rw [htb]; intro b hb; exact (List.mem_replicate.1 hb).2
      exact this _ (List.getElem_mem _)
    · exact hwf.high i (by omega)
  refine ⟨_, rfl, ⟨hwf, by simp, hsz, ⟨ctWidth_pos _, e1⟩, ⟨ctWidth_pos _, e2⟩, ⟨ctWidth_pos _, e3⟩, ?_, ?_⟩,
    rfl, rfl, rfl⟩
  · intro t ht
    rw [(List.mem_replicate.1 ht).2]
    exact ⟨Nat.two_pow_pos _, Nat.two_pow_pos _, Nat.two_pow_pos _⟩
  · intro i hi
    refine ⟨fun j _ => ?_, fun j _ => ?_, fun j _ => ?_⟩ <;> rw [hbit] <;> simp

theorem BVBuilder.setBits_bits {b : BVBuilder} (h : b.WF) {pos len : Nat} {v : W} (h1 : 1 ≤ len) (hlen : len ≤ 64)
    (hp : pos + len ≤ b.size) (hv : v.toNat < 2 ^ len) :
    ∃ b', b.setBits pos v len = some b' ∧ b'.WF ∧ b'.size = b.size ∧
      ∀ i, bitAt b'.bits i = if pos ≤ i ∧ i < pos + len then v.getLsbD (i - pos) else bitAt b.bits i := by
  have hle := h.le
  obtain ⟨b', e, hwf, _⟩ := BVBuilder.setBits_wf h hlen hp hv
  obtain ⟨ws, hws, hl, hbits⟩ := writeField_spec b.bits pos len v h1 hlen (by omega) hv
  have e' : b.setBits pos v len = some { b with bits := ws } := by
    unfold BVBuilder.setBits
    rw [if_neg (by omega)]
    rw [show (have mask := (if len = 64 then BitVec.allOnes 64 else (1#64 <<< len) - 1#64);
      (do let bits ← writeField b.bits pos len mask v
          return ({ b with bits := bits } : BVBuilder) : Option BVBuilder)) =
      (writeField b.bits pos len (maskOf len) v).bind (fun bits => some { b with bits := bits }) from rfl, hws]
    rfl
  rw [e] at e'; cases e'
  exact ⟨_, e, hwf, rfl, hbits⟩

theorem slot_bound {i n s a b : Nat} (h : i < n) (hab : a + b ≤ s) : i * s + a + b ≤ n * s := by
  have : (i + 1) * s ≤ n * s := Nat.mul_le_mul_right _ h
  rw [Nat.succ_mul] at this; omega

theorem slot_disjoint {i k s x y : Nat} (hx : x < s) (hy : y < s) (hne : i ≠ k) : i * s + x ≠ k * s + y := by
  intro e
  have hs : 0 < s := by omega
  have h1 : (i * s + x) / s = i := by
    rw [Nat.mul_comm, Nat.mul_add_div hs, Nat.div_eq_of_lt hx]; omega
  have h2 : (k * s + y) / s = k := by
    rw [Nat.mul_comm, Nat.mul_add_div hs, Nat.div_eq_of_lt hy]; omega
  rw [e, h2] at h1; exact hne h1.symm

theorem CTBuilder.set_holds {b : CTBuilder} {ts : List (W × W × W)} (h : b.Holds ts) {i : Nat} (hi : i < ts.length)
    {t : W × W × W} (h1 : t.1.toNat < 2 ^ b.w1) (h2 : t.2.1.toNat < 2 ^ b.w2) (h3 : t.2.2.toNat < 2 ^ b.w3) :
    ∃ b', b.set i t = some b' ∧ b'.Holds (ts.set i t) ∧ b'.w1 = b.w1 ∧ b'.w2 = b.w2 ∧ b'.w3 = b.w3 := by
  have hbs := h.bsize
  have hsz := h.size
  have b1 : i * (b.w1 + b.w2 + b.w3) + b.w1 ≤ b.bits.size := by
    rw [hbs]; have := slot_bound (s := b.w1 + b.w2 + b.w3) (a := 0) (b := b.w1) (show i < b.size by omega) (by omega)
    omega
  have b2 : i * (b.w1 + b.w2 + b.w3) + b.w1 + b.w2 ≤ b.bits.size := by
    rw [hbs]; exact slot_bound (show i < b.size by omega) (by omega)
  have b3 : i * (b.w1 + b.w2 + b.w3) + b.w1 + b.w2 + b.w3 ≤ b.bits.size := by
    rw [hbs]
    have := slot_bound (s := b.w1 + b.w2 + b.w3) (a := b.w1 + b.w2) (b := b.w3) (show i < b.size by omega) (by omega)
    omega
  obtain ⟨c1, e1, wf1, s1, g1⟩ := BVBuilder.setBits_bits h.wf h.h1.1 h.h1.2 b1 h1
  obtain ⟨c2, e2, wf2, s2, g2⟩ := BVBuilder.setBits_bits wf1 h.h2.1 h.h2.2 (by rw [s1]; exact b2) h2
  obtain ⟨c3, e3, wf3, s3, g3⟩ := BVBuilder.setBits_bits wf2 h.h3.1 h.h3.2 (by rw [s2, s1]; exact b3) h3
  refine ⟨{ b with bits := c3 }, ?_, ⟨wf3, by simp [hsz], by simp only; rw [s3, s2, s1, hbs], h.h1, h.h2, h.h3, ?_, ?_⟩,
    rfl, rfl, rfl⟩
  · unfold CTBuilder.set; simp only [e1, e2, e3, Option.bind_eq_bind, Option.bind_some, Option.pure_def]
  · intro t' ht'
    rcases List.mem_or_eq_of_mem_set ht' with h' | h'
    · exact h.fits t' h'
    · subst h'; exact ⟨h1, h2, h3⟩
  · intro k hk
    rw [List.length_set] at hk
    simp only [List.getElem_set]
    generalize hs : b.w1 + b.w2 + b.w3 = s at *
    have hall : ∀ p, bitAt c3.bits p =
        if i * s + b.w1 + b.w2 ≤ p ∧ p < i * s + b.w1 + b.w2 + b.w3 then t.2.2.getLsbD (p - (i * s + b.w1 + b.w2))
        else if i * s + b.w1 ≤ p ∧ p < i * s + b.w1 + b.w2 then t.2.1.getLsbD (p - (i * s + b.w1))
        else if i * s ≤ p ∧ p < i * s + b.w1 then t.1.getLsbD (p - i * s)
        else bitAt b.bits.bits p := by
      intro p; rw [g3, g2, g1]
    by_cases hik : i = k
    · subst hik
      simp only [if_true]
      refine ⟨fun j hj => ?_, fun j hj => ?_, fun j hj => ?_⟩
      · rw [hall, if_neg (by omega), if_neg (by omega), if_pos (by omega)]; congr 1; omega
      · rw [hall, if_neg (by omega), if_pos (by omega)]; congr 1; omega
      · rw [hall, if_pos (by omega)]; congr 1; omega
    · simp only [hik, if_false]
      have hout : ∀ x, x < s → bitAt c3.bits (k * s + x) = bitAt b.bits.bits (k * s + x) := by
        intro x hx
        have hd : ∀ y, y < s → i * s + y ≠ k * s + x := fun y hy => slot_disjoint hy hx hik
        have hn : ¬ (i * s ≤ k * s + x ∧ k * s + x < i * s + s) := by
          intro ⟨ha, hb⟩
          exact hd (k * s + x - i * s) (by omega) (by omega)
        rw [hall, if_neg (by omega), if_neg (by omega), if_neg (by omega)]
      have hb := h.bits k hk
      rw [hs] at hb
      refine ⟨fun j hj => ?_, fun j hj => ?_, fun j hj => ?_⟩
      · rw [hout j (by omega)]; exact hb.1 j hj
      · rw [Nat.add_assoc, hout _ (by omega), ← Nat.add_assoc]; exact hb.2.1 j hj
      · rw [Nat.add_assoc, Nat.add_assoc, hout _ (by omega), ← Nat.add_assoc, ← Nat.add_assoc]; exact hb.2.2 j hj

theorem CTBuilder.get_spec {b : CTBuilder} {ts : List (W × W × W)} (h : b.Holds ts) {i : Nat} (hi : i < ts.length) :
    b.build.get i = some ts[i] := by
  have hbs := h.bsize
  have hsz := h.size
  have hle := h.wf.le
  have b3 : i * (b.w1 + b.w2 + b.w3) + b.w1 + b.w2 + b.w3 ≤ b.bits.size := by
    rw [hbs]
    have := slot_bound (s := b.w1 + b.w2 + b.w3) (a := b.w1 + b.w2) (b := b.w3) (show i < b.size by omega) (by omega)
    omega
  obtain ⟨hb1, hb2, hb3⟩ := h.bits i hi
  obtain ⟨hf1, hf2, hf3⟩ := h.fits ts[i] (List.getElem_mem _)
  obtain ⟨x1, i1, e1, q1, v1, p1, inv1, _⟩ := BitsIter.getBits_spec
    (BitsIter.new_clean b.bits.bits (i * (b.w1 + b.w2 + b.w3))).toInv (len := b.w1) h.h1.2
    (by simp only [BitsIter.new]; omega)
  obtain ⟨x2, i2, e2, q2, v2, p2, inv2, _⟩ := BitsIter.getBits_spec inv1 (len := b.w2) h.h2.2
    (by rw [p1, v1]; simp only [BitsIter.new]; omega)
  obtain ⟨x3, i3, e3, q3, v3, p3, inv3, _⟩ := BitsIter.getBits_spec inv2 (len := b.w3) h.h3.2
    (by rw [p2, p1, v2, v1]; simp only [BitsIter.new]; omega)
  unfold CTVec.get CTBuilder.build BitVector.ofBuilder
  simp only [e1, e2, e3, Option.bind_eq_bind, Option.bind_some, Option.pure_def]
  congr 1
  have E : ∀ {x t : W} {w pos : Nat}, w ≤ 64 → (∀ j, x.getLsbD j = (decide (j < w) && bitAt b.bits.bits (pos + j))) →
      (∀ j, j < w → bitAt b.bits.bits (pos + j) = t.getLsbD j) → t.toNat < 2 ^ w → x = t := by
    intro x t w pos hw hx hb ht
    apply BitVec.eq_of_getLsbD_eq
    intro j _
    rw [hx]
    by_cases hj : j < w
    · simp [hj, hb j hj]
    · rw [bit_high_false ht (by omega)]; simp [hj]
  refine Prod.ext ?_ (Prod.ext ?_ ?_)
  · exact E h.h1.2 q1 hb1 hf1
  · refine E h.h2.2 ?_ hb2 hf2
    intro j; rw [q2, v1, p1]; rfl
  · refine E h.h3.2 ?_ hb3 hf3
    intro j; rw [q3, v2, v1, p2, p1]; rfl

end Tongrams
