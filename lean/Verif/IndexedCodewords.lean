import Verif.EliasFano

/-!
# `indexed_codewords_sequence` and `prefix_summed_sequence`

Values are 64-bit words.  `prefix_summed_sequence` is modelled over `ef_sequence` here (it is also used over
`uniform_pef_sequence`).
-/

namespace Tongrams
open BitVector

/-- `indexed_codewords_sequence`, members: indexed_codewords_sequence.hpp:115-119. -/
structure ICSeq where
  size : Nat
  codewords : BitVector
  index : BitVector
  d1 : DArray

namespace ICSeq

/-- `util::floor_log2(v + 2)`, indexed_codewords_sequence.hpp:18 and 26. -/
def cwLen (v : W) : Nat := floorLog2 (v + 2#64)

/-- First loop of `build`: the number of bits, indexed_codewords_sequence.hpp:15-19. -/
def totalBits : List W → Nat
  | [] => 0
  | v :: vs => cwLen v + totalBits vs

/-- Second loop of `build`, indexed_codewords_sequence.hpp:23-32. -/
def fill : List W → Nat → BVBuilder → BVBuilder → Option (Nat × BVBuilder × BVBuilder)
  | [], pos, ix, cw => some (pos, ix, cw)
  | v :: vs, pos, ix, cw =>
    (cw.setBits pos (v + 2#64 - (1#64 <<< cwLen v)) (cwLen v)).bind fun cw =>
    (ix.set pos true).bind fun ix => fill vs (pos + cwLen v) ix cw

/-- `build(begin, n, order)`, indexed_codewords_sequence.hpp:12-41. -/
def build (vs : List W) : Option ICSeq :=
  (fill vs 0 (BVBuilder.new (totalBits vs + 1) false) (BVBuilder.new (totalBits vs) false)).bind fun r =>
  (r.2.1.set r.1 true).bind fun ix =>
  (DArray.build id (ofBuilder ix)).map fun d1 =>
    { size := vs.length, codewords := ofBuilder r.2.2, index := ofBuilder ix, d1 := d1 }

/-- `operator[](i)`, indexed_codewords_sequence.hpp:43-53. -/
def get (s : ICSeq) (i : Nat) : Option W :=
  (s.d1.select id s.index i).bind fun pos =>
  (UnaryIter.new s.index.bits (pos + 1)).bind fun e =>
  e.next.bind fun r =>
  (s.codewords.getBits pos (r.1 - pos)).map fun cw => cw + (1#64 <<< (r.1 - pos)) - 2#64

/-- `iterator`, members: indexed_codewords_sequence.hpp:80-83. -/
structure Iter where
  pos : Nat
  len : Nat
  it : UnaryIter

/-- The constructor of `iterator`, indexed_codewords_sequence.hpp:56-60. -/
def iterAt (s : ICSeq) (pos : Nat) : Option Iter :=
  (UnaryIter.new s.index.bits pos).bind fun it => it.next.map fun r => ⟨r.1, 0, r.2⟩

/-- `operator*` (which moves the iterator), indexed_codewords_sequence.hpp:62-67. -/
def Iter.deref (s : ICSeq) (i : Iter) : Option (W × Iter) :=
  i.it.next.bind fun r =>
  (s.codewords.getBits i.pos (r.1 - i.pos)).map fun cw =>
    (cw + (1#64 <<< (r.1 - i.pos)) - 2#64, { i with len := r.1 - i.pos, it := r.2 })

/-- `operator++`, indexed_codewords_sequence.hpp:69-71. -/
def Iter.inc (i : Iter) : Iter := { i with pos := i.pos + i.len }

/-- The loop `for (it = begin; it != end; ++it) use *it` with at most `fuel` rounds; `none` also if the fuel
does not suffice.  `operator!=`, `begin`, `end`: indexed_codewords_sequence.hpp:73-91. -/
def collect (s : ICSeq) (endPos : Nat) : Nat → Iter → Option (List W)
  | 0, _ => none
  | fuel + 1, i =>
    if i.pos = endPos then some []
    else (i.deref s).bind fun r => (collect s endPos fuel r.2.inc).map (r.1 :: ·)

/-- Iteration from `begin()` to `end()`. -/
def iterate (s : ICSeq) (fuel : Nat) : Option (List W) :=
  (s.iterAt s.codewords.size).bind fun e => (s.iterAt 0).bind fun b => collect s e.pos fuel b

/-! ## Proofs -/

/-- Start of the `i`-th codeword. -/
def start (vs : List W) (i : Nat) : Nat := totalBits (vs.take i)

theorem totalBits_append (a b : List W) : totalBits (a ++ b) = totalBits a + totalBits b := by
  induction a with
  | nil => simp [totalBits]
  | cons v a ih => simp [totalBits, ih]; omega

theorem start_succ (vs : List W) {i : Nat} (hi : i < vs.length) : start vs (i + 1) = start vs i + cwLen vs[i] := by
  unfold start
  rw [List.take_add_one, List.getElem?_eq_getElem hi, totalBits_append]
  simp [totalBits]

theorem start_length (vs : List W) : start vs vs.length = totalBits vs := by unfold start; rw [List.take_length]

theorem start_le (vs : List W) (i : Nat) : start vs i ≤ totalBits vs := by
  have := totalBits_append (vs.take i) (vs.drop i)
  rw [List.take_append_drop] at this
  unfold start; omega

theorem cw_facts {v : W} (hv : v.toNat < 2 ^ 64 - 2) :
    1 ≤ cwLen v ∧ cwLen v ≤ 63 ∧ (v + 2#64 - (1#64 <<< cwLen v)).toNat < 2 ^ cwLen v := by
  have h2 : (v + 2#64).toNat = v.toNat + 2 := by
    rw [BitVec.toNat_add, Nat.mod_eq_of_lt]; · rfl
    · simp; omega
  have hs := floorLog2_spec (v + 2#64) (by omega)
  have h63 := floorLog2_le_63 (v + 2#64)
  unfold cwLen
  generalize hL : floorLog2 (v + 2#64) = L at *
  have hsh : (1#64 <<< L).toNat = 2 ^ L := by
    rw [BitVec.toNat_shiftLeft]
    simp only [BitVec.toNat_ofNat, Nat.shiftLeft_eq]
    rw [Nat.mod_eq_of_lt (show 1 < 2 ^ 64 by omega), Nat.one_mul]
    exact Nat.mod_eq_of_lt (Nat.pow_lt_pow_right (by omega) (by omega))
  refine ⟨?_, h63, ?_⟩
  · apply Nat.pos_of_ne_zero; intro h0; subst h0
    have := hs.2; simp at this; omega
  · rw [BitVec.toNat_sub_of_le (by rw [BitVec.le_def, hsh]; exact hs.1), hsh]
    have := hs.2
    rw [Nat.pow_succ] at this; omega

theorem start_lt {vs : List W} (hv : ∀ v ∈ vs, v.toNat < 2 ^ 64 - 2) {i : Nat} (hi : i < vs.length) :
    start vs i < start vs (i + 1) := by
  rw [start_succ vs hi]
  have := (cw_facts (hv _ (List.getElem_mem hi))).1; omega

theorem start_mono {vs : List W} {i j : Nat} (h : i ≤ j) : start vs i ≤ start vs j := by
  unfold start
  have h1 := totalBits_append ((vs.take j).take i) ((vs.take j).drop i)
  rw [List.take_append_drop, List.take_take, Nat.min_eq_left h] at h1
  omega

structure FillInv (vs : List W) (i : Nat) (ix cw : BVBuilder) : Prop where
  iwf : ix.WF
  isz : ix.size = totalBits vs + 1
  ones : ∀ p, bitAt ix.bits p = true ↔ ∃ k, k < i ∧ p = start vs k
  cwf : cw.WF
  csz : cw.size = totalBits vs
  cws : ∀ k (hk : k < vs.length), k < i → ∀ j, j < cwLen vs[k] →
    bitAt cw.bits (start vs k + j) = (vs[k] + 2#64 - (1#64 <<< cwLen vs[k])).getLsbD j

theorem fill_spec {vs : List W} (hv : ∀ v ∈ vs, v.toNat < 2 ^ 64 - 2) : ∀ (d i : Nat) (ix cw : BVBuilder), i + d = vs.length →
    FillInv vs i ix cw → ∃ ix' cw', fill (vs.drop i) (start vs i) ix cw = some (totalBits vs, ix', cw') ∧
      FillInv vs vs.length ix' cw' := by
  intro d
  induction d with
  | zero =>
    intro i ix cw hi h
    have : i = vs.length := by omega
    subst this
    rw [List.drop_length, start_length]
    exact ⟨ix, cw, rfl, h⟩
  | succ d ih =>
    intro i ix cw hi h
    have hi' : i < vs.length := by omega
    rw [List.drop_eq_getElem_cons hi']
    obtain ⟨l1, l2, l3⟩ := cw_facts (hv _ (List.getElem_mem hi'))
    have hs := start_succ vs hi'
    have hle := start_le vs (i + 1)
    obtain ⟨cw', e1, w1, s1, b1⟩ := BVBuilder.setBits_bits h.cwf l1 (by omega) (pos := start vs i) (by rw [h.csz]; omega) l3
    obtain ⟨ix', e2, w2, s2, b2⟩ := BVBuilder.set_bits h.iwf (pos := start vs i) (by rw [h.isz]; omega) true
    rw [fill, e1, Option.bind_some, e2, Option.bind_some, ← hs]
    apply ih (i + 1) ix' cw' (by omega)
    refine ⟨w2, by rw [s2, h.isz], ?_, w1, by rw [s1, h.csz], ?_⟩
    · intro p
      rw [b2]
      by_cases hp : p = start vs i
      · rw [if_pos hp]; exact ⟨fun _ => ⟨i, by omega, hp⟩, fun _ => rfl⟩
      · rw [if_neg hp, h.ones]
        constructor
        · rintro ⟨k, hk, e⟩; exact ⟨k, by omega, e⟩
        · rintro ⟨k, hk, e⟩
          rcases Nat.lt_or_ge k i with h' | h'
          · exact ⟨k, h', e⟩
          · have : k = i := by omega
            subst this; exact absurd e hp
    · intro k hk hki j hj
      rw [b1]
      rcases Nat.lt_or_ge k i with h' | h'
      · have hk1 := start_succ vs hk
        have := start_mono (vs := vs) (show k + 1 ≤ i from h')
        rw [if_neg (by omega)]
        exact h.cws k hk h' j hj
      · have : k = i := by omega
        subst this
        rw [if_pos (by omega), show start vs k + j - start vs k = j by omega]

/-- What a built sequence holds. -/
structure Holds (s : ICSeq) (vs : List W) : Prop where
  size : s.size = vs.length
  bound : ∀ v ∈ vs, v.toNat < 2 ^ 64 - 2
  isz : s.index.size = totalBits vs + 1
  iroom : s.index.size ≤ 64 * s.index.bits.length
  ones : ∀ p, bitAt s.index.bits p = true ↔ ∃ k, k < vs.length + 1 ∧ p = start vs k
  d1 : s.d1.Built (Spec.onesIn (bitAt s.index.bits) 0 s.index.size)
  csz : s.codewords.size = totalBits vs
  croom : s.codewords.size ≤ 64 * s.codewords.bits.length
  cws : ∀ k (hk : k < vs.length), ∀ j, j < cwLen vs[k] →
    bitAt s.codewords.bits (start vs k + j) = (vs[k] + 2#64 - (1#64 <<< cwLen vs[k])).getLsbD j

theorem build_spec {vs : List W} (hv : ∀ v ∈ vs, v.toNat < 2 ^ 64 - 2) : ∃ s, build vs = some s ∧ s.Holds vs := by
  obtain ⟨w1, t1⟩ := BVBuilder.new_wf (totalBits vs + 1) false
  obtain ⟨w2, t2⟩ := BVBuilder.new_wf (totalBits vs) false
  obtain ⟨ix, cw, e1, h⟩ := fill_spec hv vs.length 0 _ _ (by omega) (show FillInv vs 0 (BVBuilder.new (totalBits vs + 1) false)
      (BVBuilder.new (totalBits vs) false) from by
    refine ⟨w1, ?_, ?_, w2, ?_, by intro k _ hk; omega⟩
    · rw [← BVBuilder.length_toBools, t1]; simp
    · intro p
      rw [w1.bitAt, t1]
      constructor
      · intro h
        rw [List.getD_eq_getElem?_getD, List.getElem?_replicate] at h
        split at h <;> simp at h
      · rintro ⟨k, hk, _⟩; omega
    · rw [← BVBuilder.length_toBools, t2]; simp)
  rw [List.drop_zero, show start vs 0 = 0 by simp [start, totalBits]] at e1
  obtain ⟨ix', e2, w3, s3, b3⟩ := BVBuilder.set_bits h.iwf (pos := totalBits vs) (by rw [h.isz]; omega) true
  have hroom : (ofBuilder ix').size ≤ 64 * (ofBuilder ix').bits.length := w3.le
  obtain ⟨d, ed, hd⟩ := DArray.build_spec (getter_id (ofBuilder ix').bits) (bv := ofBuilder ix') hroom
  unfold build
  rw [e1, Option.bind_some]
  simp only
  rw [e2, Option.bind_some, ed, Option.map_some]
  refine ⟨_, rfl, ⟨rfl, hv, by show ix'.size = _; rw [s3, h.isz], hroom, ?_, hd, h.csz, h.cwf.le, fun k hk => h.cws k hk hk⟩⟩
  intro p
  show bitAt ix'.bits p = true ↔ _
  rw [b3]
  by_cases hp : p = totalBits vs
  · rw [if_pos hp]; exact ⟨fun _ => ⟨vs.length, by omega, by rw [start_length]; exact hp⟩, fun _ => rfl⟩
  · rw [if_neg hp, h.ones]
    constructor
    · rintro ⟨k, hk, e⟩; exact ⟨k, by omega, e⟩
    · rintro ⟨k, hk, e⟩
      rcases Nat.lt_or_ge k vs.length with h' | h'
      · exact ⟨k, h', e⟩
      · have : k = vs.length := by omega
        subst this; rw [start_length] at e; exact absurd e hp

variable {s : ICSeq} {vs : List W}

theorem Holds.gap (h : s.Holds vs) {i : Nat} (hi : i < vs.length) {p : Nat} (h1 : start vs i < p) (h2 : p < start vs (i + 1)) :
    bitAt s.index.bits p = false := by
  apply Bool.eq_false_iff.2; intro hp
  obtain ⟨k, hk, rfl⟩ := (h.ones p).1 hp
  rcases Nat.lt_or_ge i k with h' | h'
  · have := start_mono (vs := vs) (show i + 1 ≤ k from h'); omega
  · have := start_mono (vs := vs) h'; omega

theorem Holds.read (h : s.Holds vs) {i : Nat} (hi : i < vs.length) :
    ∃ cw, s.codewords.getBits (start vs i) (start vs (i + 1) - start vs i) = some cw ∧
      cw + (1#64 <<< (start vs (i + 1) - start vs i)) - 2#64 = vs[i] := by
  obtain ⟨l1, l2, l3⟩ := cw_facts (h.bound _ (List.getElem_mem hi))
  have hs := start_succ vs hi
  have hle := start_le vs (i + 1)
  have hc := h.croom; rw [h.csz] at hc
  rw [show start vs (i + 1) - start vs i = cwLen vs[i] by omega]
  obtain ⟨x, ex, hx⟩ := getBits_spec (bv := s.codewords) (pos := start vs i) (len := cwLen vs[i]) (by omega) (by omega)
  refine ⟨x, ex, ?_⟩
  have hxe : x = vs[i] + 2#64 - (1#64 <<< cwLen vs[i]) := by
    apply BitVec.eq_of_getLsbD_eq
    intro j _
    rw [hx]
    by_cases hj : j < cwLen vs[i]
    · rw [h.cws i hi j hj]; simp [hj]
    · rw [bit_high_false l3 (by omega)]; simp [hj]
  rw [hxe]
  generalize 1#64 <<< cwLen vs[i] = y
  rw [BitVec.sub_add_cancel, BitVec.add_sub_cancel]

theorem Holds.get (h : s.Holds vs) {i : Nat} (hi : i < vs.length) : s.get i = some vs[i] := by
  have hsel := isSelect_of_strict (f := bitAt s.index.bits) (n := vs.length + 1) (hp := start vs)
    (fun i hi => start_lt h.bound (by omega)) h.ones i (by omega)
  have hle := start_le vs (i + 1)
  have hlt := start_lt h.bound hi
  have hr := h.iroom
  have hsz := h.isz
  unfold ICSeq.get
  rw [DArray.select_spec (getter_id _) hr h.d1 (by omega) hsel, Option.bind_some]
  obtain ⟨it, e1, w1, p1, a1⟩ := UnaryIter.new_at (ws := s.index.bits) (pos := start vs i + 1) (by omega)
  rw [e1, Option.bind_some]
  obtain ⟨it', e2, -, -, -⟩ := UnaryIter.next_spec a1 (q := start vs (i + 1))
    (by rw [w1]; exact (h.ones _).2 ⟨i + 1, by omega, rfl⟩) (by omega)
    (by intro p q1 q2; rw [w1]; exact h.gap hi (by omega) q2)
  rw [e2, Option.bind_some]
  obtain ⟨cw, e3, hcw⟩ := h.read hi
  simp only
  rw [e3, Option.map_some, hcw]

/-- The iterator is at the `i`-th codeword. -/
structure IterInv (s : ICSeq) (vs : List W) (i : Nat) (it : Iter) : Prop where
  pos : it.pos = start vs i
  ws : it.it.ws = s.index.bits
  cur : it.it.At (start vs i + 1)

theorem Holds.iterAt (h : s.Holds vs) {i : Nat} (hi : i ≤ vs.length) :
    ∃ it, s.iterAt (start vs i) = some it ∧ IterInv s vs i it := by
  have hle := start_le vs i
  have hr := h.iroom
  have hsz := h.isz
  obtain ⟨it, e1, w1, p1, a1⟩ := UnaryIter.new_at (ws := s.index.bits) (pos := start vs i) (by omega)
  obtain ⟨it', e2, w2, p2, a2⟩ := UnaryIter.next_spec a1 (q := start vs i)
    (by rw [w1]; exact (h.ones _).2 ⟨i, by omega, rfl⟩) (Nat.le_refl _) (by intro p q1 q2; omega)
  unfold ICSeq.iterAt
  rw [e1, Option.bind_some, e2, Option.map_some]
  exact ⟨_, rfl, ⟨rfl, by rw [w2, w1], a2⟩⟩

theorem Holds.collect (h : s.Holds vs) : ∀ (d i fuel : Nat) (it : Iter), i + d = vs.length → d < fuel → IterInv s vs i it →
    s.collect (totalBits vs) fuel it = some (vs.drop i) := by
  intro d
  induction d with
  | zero =>
    intro i fuel it hi hf hit
    obtain ⟨fuel, rfl⟩ : ∃ f, fuel = f + 1 := ⟨fuel - 1, by omega⟩
    have : i = vs.length := by omega
    subst this
    unfold ICSeq.collect
    rw [if_pos (by rw [hit.pos, start_length]), List.drop_length]
  | succ d ih =>
    intro i fuel it hi hf hit
    obtain ⟨fuel, rfl⟩ : ∃ f, fuel = f + 1 := ⟨fuel - 1, by omega⟩
    have hi' : i < vs.length := by omega
    have hlt := start_lt h.bound hi'
    have hle := start_le vs (i + 1)
    unfold ICSeq.collect
    rw [if_neg (by rw [hit.pos]; omega)]
    unfold Iter.deref
    obtain ⟨u, e2, w2, p2, a2⟩ := UnaryIter.next_spec hit.cur (q := start vs (i + 1))
      (by rw [hit.ws]; exact (h.ones _).2 ⟨i + 1, by omega, rfl⟩) (by omega)
      (by intro p q1 q2; rw [hit.ws]; exact h.gap hi' (by omega) q2)
    rw [e2, Option.bind_some]
    obtain ⟨cw, e3, hcw⟩ := h.read hi'
    simp only [hit.pos]
    rw [e3, Option.map_some, Option.bind_some, hcw]
    have := ih (i + 1) fuel (Iter.inc { pos := start vs i, len := start vs (i + 1) - start vs i, it := u }) (by omega) (by omega)
      ⟨by show start vs i + (start vs (i + 1) - start vs i) = _; omega, by show u.ws = _; rw [w2, hit.ws], a2⟩
    simp only
    rw [this, Option.map_some, List.drop_eq_getElem_cons hi']

end ICSeq

/-- C15: an `indexed_codewords_sequence` built from any values below 2^64-2 returns them by `operator[]` and by
iteration from `begin()` to `end()` (which ends after exactly `n` steps). -/
theorem C15_indexed_codewords_lossless {vs : List W} (hv : ∀ v ∈ vs, v.toNat < 2 ^ 64 - 2) :
    ∃ s, ICSeq.build vs = some s ∧ s.size = vs.length ∧ (∀ i (hi : i < vs.length), s.get i = some vs[i]) ∧
      ∀ fuel, vs.length < fuel → s.iterate fuel = some vs := by
  obtain ⟨s, e, h⟩ := ICSeq.build_spec hv
  refine ⟨s, e, h.size, fun i hi => h.get hi, ?_⟩
  intro fuel hf
  obtain ⟨ie, e1, i1⟩ := h.iterAt (Nat.le_refl vs.length)
  obtain ⟨ib, e2, i2⟩ := h.iterAt (Nat.zero_le vs.length)
  rw [ICSeq.start_length] at e1
  rw [show ICSeq.start vs 0 = 0 by simp [ICSeq.start, ICSeq.totalBits]] at e2
  unfold ICSeq.iterate
  rw [h.csz, e1, Option.bind_some, e2, Option.bind_some, i1.pos, ICSeq.start_length]
  have := h.collect vs.length 0 fuel ib (by omega) hf i2
  rw [this, List.drop_zero]

/-- Non-vacuity: values of one to 63 bits, including the largest allowed one. -/
example : ∀ v ∈ [0#64, 1#64, 5#64, 0#64, BitVec.ofNat 64 (2 ^ 64 - 3)], v.toNat < 2 ^ 64 - 2 := by simp

/-- C15, defect: for 2^64-2 the sum `v + 2` wraps to 0, an empty codeword is written and the value read back is
another one. -/
theorem C15_largest_values_defect :
    ((ICSeq.build [BitVec.ofNat 64 (2 ^ 64 - 2), 7#64]).bind fun s => s.get 0) = some 7#64 := by decide +kernel

/-! ## prefix_summed_sequence<ef_sequence> -/

/-- The loop computing the prefix sums, prefix_summed_sequence.hpp:16-21 (additions wrap). -/
def prefixSums : List Nat → Nat → List Nat
  | [], _ => []
  | v :: vs, last => (v + last) % 2 ^ 64 :: prefixSums vs ((v + last) % 2 ^ 64)

/-- `build(begin, n, order)` over `ef_sequence`, prefix_summed_sequence.hpp:12-23; `back()` of an empty vector is
undefined. -/
def PSEF.build (vs : List Nat) : Option (Except Unit EF) :=
  (prefixSums vs 0).getLast?.bind fun u => EF.build (prefixSums vs 0) u

/-- `operator[](i)`, prefix_summed_sequence.hpp:25-27 (the subtraction wraps). -/
def PSEF.get (e : EF) (i : Nat) : Option Nat :=
  (e.get i).bind fun a => (if i ≠ 0 then e.get (i - 1) else some 0).map fun b => (a + 2 ^ 64 - b) % 2 ^ 64

theorem prefixSums_spec : ∀ (vs : List Nat) (last : Nat), last + vs.sum < 2 ^ 64 →
    (prefixSums vs last).length = vs.length ∧
    ∀ i, i < vs.length → (prefixSums vs last).getD i 0 = last + (vs.take (i + 1)).sum := by
  intro vs
  induction vs with
  | nil => intro last _; simp [prefixSums]
  | cons v vs ih =>
    intro last h
    rw [List.sum_cons] at h
    rw [prefixSums, Nat.mod_eq_of_lt (by omega)]
    obtain ⟨h1, h2⟩ := ih (v + last) (by omega)
    refine ⟨by simp [h1], ?_⟩
    intro i hi
    cases i with
    | zero => simp; omega
    | succ i =>
      rw [List.getD_cons_succ, h2 i (by simpa using hi), List.take_succ_cons, List.sum_cons]; omega

theorem sum_take_succ (vs : List Nat) {i : Nat} (hi : i < vs.length) : (vs.take (i + 1)).sum = (vs.take i).sum + vs[i] := by
  rw [List.take_add_one, List.getElem?_eq_getElem hi, List.sum_append]; simp

theorem sum_take_le (vs : List Nat) (i : Nat) : (vs.take i).sum ≤ vs.sum := by
  have := congrArg List.sum (List.take_append_drop i vs)
  rw [List.sum_append] at this; omega

theorem sum_take_mono (vs : List Nat) {i j : Nat} (h : i ≤ j) : (vs.take i).sum ≤ (vs.take j).sum := by
  have := sum_take_le (vs.take j) i
  rwa [List.take_take, Nat.min_eq_left h] at this

/-- C16: a `prefix_summed_sequence<ef_sequence>` over any non-empty sequence of values whose sum fits in 64 bits
returns them by `operator[]`. -/
theorem C16_prefix_summed_lossless {vs : List Nat} (hne : vs ≠ []) (hsum : vs.sum < 2 ^ 64) :
    ∃ e, PSEF.build vs = some (.ok e) ∧ e.size = vs.length ∧ ∀ i (hi : i < vs.length), PSEF.get e i = some vs[i] := by
  obtain ⟨h1, h2⟩ := prefixSums_spec vs 0 (by omega)
  simp only [Nat.zero_add] at h2
  have hlen : 0 < vs.length := List.length_pos_iff.2 hne
  have hge : ∀ i (hi : i < (prefixSums vs 0).length), (prefixSums vs 0)[i] = (vs.take (i + 1)).sum := by
    intro i hi
    have := h2 i (by omega)
    rwa [List.getD_eq_getElem?_getD, List.getElem?_eq_getElem hi] at this
  have hlast : (prefixSums vs 0).getLast? = some vs.sum := by
    rw [List.getLast?_eq_getElem?, List.getElem?_eq_getElem (by omega), hge, h1, show vs.length - 1 + 1 = vs.length by omega,
      List.take_length]
  have hs : Spec.Sorted (prefixSums vs 0) := by
    unfold Spec.Sorted
    rw [List.pairwise_iff_getElem]
    intro i j hi hj hij
    rw [hge, hge]; exact sum_take_mono vs (by omega)
  have hu : ∀ v ∈ prefixSums vs 0, v ≤ vs.sum := by
    intro v hv
    obtain ⟨i, hi, rfl⟩ := List.getElem_of_mem hv
    rw [hge]; exact sum_take_le _ _
  obtain ⟨e, eb, h, -⟩ := EF.build_ok hs hu hsum
  unfold PSEF.build
  rw [hlast, Option.bind_some, eb]
  refine ⟨e, rfl, by rw [h.size, h1], ?_⟩
  intro i hi
  unfold PSEF.get
  rw [h.get (by omega), Option.bind_some, h2 i hi, sum_take_succ vs hi]
  have hle := sum_take_le vs (i + 1)
  rw [sum_take_succ vs hi] at hle
  by_cases h0 : i = 0
  · subst h0
    simp only [ne_eq, not_true_eq_false, if_false, Option.map_some]
    rw [Nat.sub_zero, Nat.add_mod_right, Nat.mod_eq_of_lt (by omega)]; simp
  · rw [if_pos h0, h.get (by omega), Option.map_some, h2 (i - 1) (by omega), show i - 1 + 1 = i by omega]
    rw [show (vs.take i).sum + vs[i] + 2 ^ 64 - (vs.take i).sum = vs[i] + 2 ^ 64 by omega, Nat.add_mod_right,
      Nat.mod_eq_of_lt (by omega)]

/-- Non-vacuity: count ranks with zeros and a large one. -/
example : ([0, 3, 0, 0, 2 ^ 40, 1] : List Nat) ≠ [] ∧ ([0, 3, 0, 0, 2 ^ 40, 1] : List Nat).sum < 2 ^ 64 := by decide

/-- C16, defect: building from an empty sequence takes `back()` of an empty vector. -/
theorem C16_empty_build_defect : PSEF.build [] = none := rfl

end Tongrams
