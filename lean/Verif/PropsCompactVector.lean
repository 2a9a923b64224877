import Verif.CompactVector

/-!
# Properties C01 – C04 (compact_vector), C10 (bit primitives), C37 (pack/unpack)
-/

namespace Tongrams

/-! ## C01 -/

/-- C01. Filling a builder of `n` entries and any width `w ≤ 64` with `n` values that fit in `w`
bits succeeds (no out-of-bounds access); the built vector, by either of the two `build` functions,
and the builder itself return exactly the values. -/
theorem C01_roundtrip (w : Nat) (hw : w ≤ 64) (vs : List W) (hv : ∀ v ∈ vs, v.toNat < 2 ^ w) :
    ∃ b b', CVBuilder.new vs.length w = some b ∧ b.fill vs = some b' ∧
      (CompactVector.ofBuilder b').size = vs.length ∧ b'.build.size = vs.length ∧
      ∀ i (h : i < vs.length),
        (CompactVector.ofBuilder b').get i = some vs[i] ∧ b'.build.get i = some vs[i] ∧
        b'.get i = some vs[i] := by
  obtain ⟨b, b', e, e', hh, hb, hwid⟩ := CompactVector.fill_holds w hw vs hv
  refine ⟨b, b', e, e', hh.size, hh.size, fun i hi => ?_⟩
  have h1 := hh.get hi
  by_cases h0 : w = 0
  · subst h0
    have hg : b'.build.get i = some vs[i] := by
      obtain ⟨b0, e0, hp⟩ := CVBuilder.new_pushed0 vs.length
      obtain ⟨b1, e1, hp1⟩ := CVBuilder.fill_pushed0 vs hp (by omega) hv
      rw [e] at e0; cases e0
      rw [e'] at e1; cases e1
      have hz : vs[i] = 0#64 := by
        apply BitVec.eq_of_toNat_eq
        have := hv _ (List.getElem_mem hi)
        simp at this; simpa using this
      have hlen := hp1.len
      simp only [CompactVector.get, CVBuilder.build, readField, hp1.width, hp1.mask, Nat.mul_one]
      rw [if_pos (by omega), rd_of_lt (by omega)]
      simp [hz]
    exact ⟨h1, hg, hg⟩
  · have := hb (by omega)
    have h2 : b'.build.get i = some vs[i] := by rw [this]; exact h1
    exact ⟨h1, h2, h2⟩

/-- C01. `compact_vector::build(iterator, n)` chooses the width itself; it is lossless for all
values other than `2^64 - 1`. -/
theorem C01_build_from_iterator (vs : List W) (hv : ∀ v ∈ vs, v.toNat < 2 ^ 64 - 1) :
    ∃ cv, CompactVector.buildFrom vs = some cv ∧ cv.size = vs.length ∧
      ∀ i (h : i < vs.length), cv.get i = some vs[i] := by
  obtain ⟨cv, e, hh⟩ := CompactVector.buildFrom_holds vs hv
  exact ⟨cv, e, hh.size, fun i h => hh.get h⟩

/-- C01. A default-constructed builder that is resized to `n` entries of width `w` is the builder
constructed with `n` and `w` (so everything above applies to it). -/
theorem C01_resize (n w : Nat) :
    (CVBuilder.new 0 0).bind (fun b => b.resize n w) = CVBuilder.new n w := by
  have h0 : wordsFor 0 = 0 := rfl
  have e : CVBuilder.new 0 0 = some ⟨0, 1, maskOf 0, 0, 0, 0, []⟩ := by
    simp [CVBuilder.new, h0]
  rw [e, Option.bind_some]
  unfold CVBuilder.resize CVBuilder.new
  simp

/-- C01. Resizing a filled builder (same width) keeps the entries below both sizes, whether it grows or
shrinks, and every index below the new size can be read. -/
theorem C01_resize_keeps (w : Nat) (h1 : 1 ≤ w) (hw : w ≤ 64) (vs : List W) (hv : ∀ v ∈ vs, v.toNat < 2 ^ w) (n : Nat) :
    ∃ b b' b'', CVBuilder.new vs.length w = some b ∧ b.fill vs = some b' ∧ b'.resize n w = some b'' ∧ b''.size = n ∧
      (∀ i, i < n → ∃ v, b''.get i = some v) ∧
      ∀ i (h : i < vs.length), i < n → b''.get i = some vs[i] := by
  obtain ⟨b, b', e, e', hh, hb, hwid⟩ := CompactVector.fill_holds w hw vs hv
  have hbb := hb h1
  have hwid' : b'.width = w := by rw [hwid]; omega
  have hbits : b'.bits = (CompactVector.ofBuilder b').bits := by rw [← hbb]; rfl
  have hlen := hh.wf.len
  rw [hh.size, ← hbits, show (CompactVector.ofBuilder b').width = w from hwid'] at hlen
  have hw64 : ¬ w > 64 := by omega
  have hw0 : ¬ w = 0 := by omega
  refine ⟨b, b', { b' with size := n, width := w, mask := maskOf w, bits := (b'.bits.take (wordsFor (n * w)) ++ List.replicate (wordsFor (n * w) - b'.bits.length) 0) }, e, e', ?_, rfl, ?_, ?_⟩
  · unfold CVBuilder.resize
    simp only [hw0, if_false, hw64]
  all_goals
    have hL : n * w ≤ 64 * (b'.bits.take (wordsFor (n * w)) ++ List.replicate (wordsFor (n * w) - b'.bits.length) (0 : W)).length := by
      rw [List.length_append, List.length_take, List.length_replicate]
      unfold wordsFor; omega
  · intro i hi
    have h2 : i * w + w ≤ n * w := by
      have := Nat.mul_le_mul_right w (show i + 1 ≤ n by omega)
      rw [Nat.add_mul, Nat.one_mul] at this; exact this
    obtain ⟨x, hx, -⟩ := readField_spec _ (i * w) w h1 hw (Nat.le_trans h2 hL)
    exact ⟨x, hx⟩
  · intro i hi hin
    have h2 : i * w + w ≤ n * w := by
      have := Nat.mul_le_mul_right w (show i + 1 ≤ n by omega)
      rw [Nat.add_mul, Nat.one_mul] at this; exact this
    have h3 : i * w + w ≤ vs.length * w := by
      have := Nat.mul_le_mul_right w (show i + 1 ≤ vs.length by omega)
      rw [Nat.add_mul, Nat.one_mul] at this; exact this
    obtain ⟨x, hx, hg⟩ := readField_spec _ (i * w) w h1 hw (Nat.le_trans h2 hL)
    show readField _ (i * w) w (maskOf w) = _
    rw [hx]
    congr 1
    apply BitVec.eq_of_getLsbD_eq
    intro j hj
    rw [hg]
    by_cases hjw : j < w
    · have hb2 := hh.bits i hi j (by rw [show (CompactVector.ofBuilder b').width = w from hwid']; exact hjw)
      rw [show (CompactVector.ofBuilder b').width = w from hwid', ← hbits] at hb2
      rw [← hb2]
      simp only [hjw, decide_true, Bool.true_and]
      have hlt : (i * w + j) / 64 < (b'.bits.take (wordsFor (n * w))).length := by
        rw [List.length_take]; unfold wordsFor; omega
      rw [bitAt_append_left _ (by omega)]
      unfold bitAt
      rw [List.getD_eq_getElem?_getD, List.getD_eq_getElem?_getD, List.getElem?_take_of_lt (by rw [List.length_take] at hlt; omega)]
    · have := hv _ (List.getElem_mem hi)
      simp only [hjw, decide_false, Bool.false_and]
      rw [BitVec.getLsbD, Nat.testBit_lt_two_pow (Nat.lt_of_lt_of_le this (Nat.pow_le_pow_right (by omega) (by omega)))]

/-- C01, defect: with the value `2^64 - 1` the width computation `ceil_log2(max + 1)` wraps around
and the stored value is lost (1 is read back). -/
theorem C01_build_from_iterator_defect :
    (do let cv ← CompactVector.buildFrom [0xFFFFFFFFFFFFFFFF#64]; cv.get 0) = some 1#64 := by
  decide +kernel

example : ∀ v ∈ [5#64, 1023#64, 0#64, 512#64, 7#64, 1#64, 1000#64], v.toNat < 2 ^ 10 := by simp
example : ∀ v ∈ [5#64, 1023#64, 0xFFFFFFFFFFFFFFFE#64], v.toNat < 2 ^ 64 - 1 := by simp

/-! ## C02 -/

/-- A history of `set(i, v)` calls on a builder. -/
def CVBuilder.sets (b : CVBuilder) : List (Nat × W) → Option CVBuilder
  | [] => some b
  | (i, v) :: h => do
    let b ← b.set i v
    b.sets h

/-- Specification: the value of entry `k` after the history, started from `init`. -/
def Spec.lastWrite {α : Type} (init : α) (k : Nat) : List (Nat × α) → α
  | [] => init
  | (i, v) :: h => Spec.lastWrite (if i = k then v else init) k h

/-- C02. After any history of `set` calls with valid indices and fitting values, entry `k` is the
last value written to it, or 0. -/
theorem C02_set_history (n w : Nat) (h1 : 1 ≤ w) (hw : w ≤ 64) (h : List (Nat × W))
    (hh : ∀ p ∈ h, p.1 < n ∧ p.2.toNat < 2 ^ w) :
    ∃ b b', CVBuilder.new n w = some b ∧ b.sets h = some b' ∧
      ∀ k, k < n → b'.get k = some (Spec.lastWrite 0#64 k h) ∧
        (CompactVector.ofBuilder b').get k = some (Spec.lastWrite 0#64 k h) := by
  -- general statement from an arbitrary builder holding `f`
  have gen : ∀ (h : List (Nat × W)), (∀ p ∈ h, p.1 < n ∧ p.2.toNat < 2 ^ w) →
      ∀ (b : CVBuilder) (f : Nat → W), b.size = n → b.width = w → b.mask = maskOf w →
      n * w ≤ 64 * b.bits.length → (∀ k, k < n → (f k).toNat < 2 ^ w) →
      (∀ k, k < n → ∀ j, j < w → bitAt b.bits (k * w + j) = (f k).getLsbD j) →
      ∃ b', b.sets h = some b' ∧ b'.width = w ∧ b'.mask = maskOf w ∧
        ∀ k, k < n → b'.get k = some (Spec.lastWrite (f k) k h) := by
    intro h
    induction h with
    | nil =>
      intro _ b f hs hwd hm hl hfit hb
      refine ⟨b, rfl, hwd, hm, fun k hk => ?_⟩
      unfold CVBuilder.get
      rw [hwd, hm]
      obtain ⟨x, hx, hxb⟩ := readField_spec b.bits (k * w) w h1 hw (Nat.le_trans (mul_index_le hk) hl)
      rw [hx]; congr 1
      apply BitVec.eq_of_getLsbD_eq
      intro j _
      rw [hxb]
      by_cases hj : j < w
      · simp only [hj, decide_true, Bool.true_and, Spec.lastWrite]; exact hb k hk j hj
      · simp only [hj, decide_false, Bool.false_and, Spec.lastWrite]
        exact (bit_high_false (hfit k hk) (by omega)).symm
    | cons p h ih =>
      intro hh b f hs hwd hm hl hfit hb
      obtain ⟨i, v⟩ := p
      obtain ⟨hi, hv⟩ := hh (i, v) (by simp)
      obtain ⟨b1, e1, s1, w1, m1, l1, hset, hother⟩ := CVBuilder.set_spec (b := b)
        (by omega) (by omega) (by rw [hm, hwd]) (by rw [hs, hwd]; exact hl) (i := i) (v := v)
        (by simpa [hs] using hi) (by simpa [hwd] using hv)
      rw [hwd] at hset hother
      obtain ⟨b', e', w', m', hg⟩ := ih (fun p hp => hh p (by simp [hp])) b1
        (fun k => if i = k then v else f k) (by omega) (by omega) (by rw [m1, hm]) (by rw [l1]; exact hl)
        (by intro k hk; by_cases hik : i = k
            · simpa [hik] using hv
            · simpa [hik] using hfit k hk)
        (by intro k hk j hj
            by_cases hik : i = k
            · subst hik; simpa using hset j hj
            · simp only [hik, if_false]; rw [hother k j (fun e => hik e.symm) hj]; exact hb k hk j hj)
      refine ⟨b', by simp [CVBuilder.sets, e1, e'], w', m', fun k hk => ?_⟩
      rw [hg k hk]; rfl
  obtain ⟨b, e, hp, hbits⟩ := CVBuilder.new_pushed (n := n) h1 hw
  obtain ⟨b', e', w', m', hg⟩ := gen h hh b (fun _ => 0#64) hp.size hp.width hp.mask hp.len
    (by intro k _; simp; exact Nat.two_pow_pos w) (by intro k _ j _; rw [hbits]; simp)
  refine ⟨b, b', e, e', fun k hk => ⟨hg k hk, ?_⟩⟩
  have := hg k hk
  unfold CVBuilder.get at this
  unfold CompactVector.get CompactVector.ofBuilder
  simp only
  rw [w'] at this ⊢
  rw [m'] at this
  exact this

-- out of order, overlapping words, overwriting
example : ∀ p ∈ [(3, 77#64), (1, 99#64), (3, 5#64), (0, 100#64)], p.1 < 4 ∧ p.2.toNat < 2 ^ 7 := by simp

/-! ## C03 -/

/-- C03. Iterating a compact vector that stores `vs` from index `k`, dereferencing once per step,
yields `operator[](k), operator[](k+1), …`. -/
theorem C03_iterator (w : Nat) (hw : w ≤ 64) (vs : List W) (hv : ∀ v ∈ vs, v.toNat < 2 ^ w)
    (k n : Nat) (hk : k + n ≤ vs.length) :
    ∃ b b', CVBuilder.new vs.length w = some b ∧ b.fill vs = some b' ∧
      CompactVector.Iter.take (CompactVector.ofBuilder b') n ((CompactVector.ofBuilder b').begin k) =
        some ((vs.drop k).take n) := by
  obtain ⟨b, b', e, e', hh, -, -⟩ := CompactVector.fill_holds w hw vs hv
  exact ⟨b, b', e, e', CompactVector.iter_take hh n k _ hk rfl rfl⟩

/-- C03. The loop from `begin(k)` until `!= end()` stops after exactly `n - k` steps and yields the
values from index `k` on; in particular the whole vector for `k = 0`. -/
theorem C03_until_end (w : Nat) (hw : w ≤ 64) (vs : List W) (hv : ∀ v ∈ vs, v.toNat < 2 ^ w)
    (k : Nat) (hk : k ≤ vs.length) :
    ∃ b b', CVBuilder.new vs.length w = some b ∧ b.fill vs = some b' ∧
      ∀ fuel, vs.length - k ≤ fuel →
        CompactVector.Iter.toEnd (CompactVector.ofBuilder b') fuel
          ((CompactVector.ofBuilder b').begin k) = some (vs.drop k) := by
  obtain ⟨b, b', e, e', hh, -, -⟩ := CompactVector.fill_holds w hw vs hv
  exact ⟨b, b', e, e', fun fuel hf => CompactVector.iter_toEnd hh fuel k _ hk (by omega) rfl rfl rfl⟩

/-- C03, remark on the interface: dereferencing twice without incrementing moves to the next value
(`operator*` advances the cursor, `operator++` only counts). -/
theorem C03_double_deref (vs : List W) (w : Nat) (hw : w ≤ 64) (hv : ∀ v ∈ vs, v.toNat < 2 ^ w)
    (h2 : 2 ≤ vs.length) :
    ∃ b b' it it', CVBuilder.new vs.length w = some b ∧ b.fill vs = some b' ∧
      ((CompactVector.ofBuilder b').begin 0).deref (CompactVector.ofBuilder b') = some (vs[0], it) ∧
      it.deref (CompactVector.ofBuilder b') = some (vs[1], it') := by
  obtain ⟨b, b', e, e', hh, -, -⟩ := CompactVector.fill_holds w hw vs hv
  have hg0 := hh.get (i := 0) (by omega)
  have hg1 := hh.get (i := 1) (by omega)
  unfold CompactVector.get at hg0 hg1
  have d0 := CompactVector.deref_eq (CompactVector.ofBuilder b') ((CompactVector.ofBuilder b').begin 0)
    (0 * (CompactVector.ofBuilder b').width) rfl rfl hh.wf.w64
  rw [hg0] at d0
  have d1 := CompactVector.deref_eq (CompactVector.ofBuilder b')
    { (CompactVector.ofBuilder b').begin 0 with
      curVal := vs[0]
      curBlock := (0 * (CompactVector.ofBuilder b').width + (CompactVector.ofBuilder b').width) / 64
      curShift := (((0 * (CompactVector.ofBuilder b').width + (CompactVector.ofBuilder b').width) % 64 : Nat) : Int) }
    (1 * (CompactVector.ofBuilder b').width) (by simp) (by simp) hh.wf.w64
  rw [hg1] at d1
  exact ⟨b, b', _, _, e, e', d0, d1⟩

example : 1 + 2 ≤ [5#64, 6#64, 7#64].length ∧ ∀ v ∈ [5#64, 6#64, 7#64], v.toNat < 2 ^ 3 := by simp

/-! ## C04 -/

/-- C04. For widths up to 58 (the comment in the code promises 57), and for 60 and 64, `access`
returns the same value as `operator[]`, i.e. the stored value, whatever memory follows the storage. -/
theorem C04_access (w : Nat) (hw : w ≤ 58 ∨ w = 60 ∨ w = 64) (vs : List W)
    (hv : ∀ v ∈ vs, v.toNat < 2 ^ w) :
    ∃ b b', CVBuilder.new vs.length w = some b ∧ b.fill vs = some b' ∧
      ∀ i (h : i < vs.length) (junk : List W), junk ≠ [] →
        (CompactVector.ofBuilder b').access junk i = some vs[i] := by
  obtain ⟨b, b', e, e', hh, -, hwid⟩ := CompactVector.fill_holds w (by omega) vs hv
  refine ⟨b, b', e, e', fun i hi junk hj => ?_⟩
  rw [CompactVector.access_eq_get hh.wf (by rw [hh.size]; exact hi) ?_ junk hj, hh.get hi]
  have hcw : (CompactVector.ofBuilder b').width = max 1 w := hwid
  rw [hcw]
  rcases hw with hw | rfl | rfl
  · by_cases h57 : w = 58
    · subst h57; simp only [Nat.reduceLeDiff, Nat.max_eq_right]; omega
    · omega
  · simp only [Nat.reduceLeDiff, Nat.max_eq_right]; omega
  · simp only [Nat.reduceLeDiff, Nat.max_eq_right]; omega

/-- C04, defect: for width 63 `access` loses the top bits of a stored value whose bit offset is 7
modulo 8 (here entry 1), whereas `operator[]` is exact. -/
theorem C04_access_defect :
    (do let b ← CVBuilder.new 2 63
        let b ← b.fill [0#64, 0x7FFFFFFFFFFFFFFF#64]
        let x ← (CompactVector.ofBuilder b).get 1
        let y ← (CompactVector.ofBuilder b).access [0#64] 1
        return (x, y)) = some (0x7FFFFFFFFFFFFFFF#64, 0x01FFFFFFFFFFFFFF#64) := by
  decide +kernel

/-! ## C10 -/

/-- C10. `popcount` counts the set bits of each 64-bit word. -/
theorem C10_popcount (x : W) : popcount x = ((List.range 64).countP fun i => x.getLsbD i) :=
  popcount_spec x

/-- C10. `select_in_word(x, k)` is the position of the `k`-th one: the bit there is set and exactly
`k` set bits are below it; the table index stays inside the table. -/
theorem C10_select_in_word (x : W) (k : Nat) (hk : k < ((List.range 64).countP fun i => x.getLsbD i)) :
    ∃ p, selectInWord x k = some p ∧ p < 64 ∧ x.getLsbD p = true ∧
      ((List.range p).countP fun i => x.getLsbD i) = k := by
  obtain ⟨p, h1, h2, h3, h4⟩ := selectInWord_spec x k (by rw [popcount_spec]; exact hk)
  exact ⟨p, h1, h2, h3, h4⟩

example : 2 < ((List.range 64).countP fun i => (0x8000000000000101#64).getLsbD i) := by decide +kernel

/-- C10. `msb`/`lsb` are the positions of the highest / lowest set bit of a non-zero word. -/
theorem C10_msb_lsb (x : W) (h : x ≠ 0#64) :
    (msb x < 64 ∧ x.getLsbD (msb x) = true ∧ ∀ j, msb x < j → x.getLsbD j = false) ∧
    (lsb x < 64 ∧ x.getLsbD (lsb x) = true ∧ ∀ j, j < lsb x → x.getLsbD j = false) ∧
    msb? x = some (msb x) ∧ lsb? x = some (lsb x) := by
  refine ⟨⟨msb_lt_64 h, msb_bit h⟩, ?_, msb?_eq h, by simp [lsb?, lsb, h]⟩
  have := ctz64_spec h
  simpa [lsb, h] using this

/-- C10. `ceil_log2(x)` is the least `k` with `x ≤ 2^k`; `floor_log2(x)` the greatest `k` with
`2^k ≤ x`. -/
theorem C10_logs (x : W) :
    (∀ k, x.toNat ≤ 2 ^ k ↔ ceilLog2 x ≤ k) ∧
    (x ≠ 0#64 → ∀ k, 2 ^ k ≤ x.toNat ↔ k ≤ floorLog2 x) := by
  constructor
  · intro k
    have hc := ceilLog2_spec x
    constructor
    · intro hk
      apply Nat.le_of_not_lt
      intro hlt
      by_cases h1 : 1 < x.toNat
      · have h2 := hc.2.1 h1
        have h3 : 2 ^ k ≤ 2 ^ (ceilLog2 x - 1) := Nat.pow_le_pow_right (by omega) (by omega)
        omega
      · have : ceilLog2 x = 0 := by unfold ceilLog2; rw [if_neg h1]
        omega
    · intro hk
      exact Nat.le_trans hc.1 (Nat.pow_le_pow_right (by omega) hk)
  · intro hne k
    have h0 : 1 ≤ x.toNat := by have := toNat_ne_zero hne; omega
    have hf := floorLog2_spec x h0
    constructor
    · intro hk
      apply Nat.le_of_not_lt
      intro hlt
      have h3 : 2 ^ (floorLog2 x + 1) ≤ 2 ^ k := Nat.pow_le_pow_right (by omega) hlt
      omega
    · intro hk
      exact Nat.le_trans (Nat.pow_le_pow_right (by omega) hk) hf.1

/-- C10. `ceil_div(a, d)` is the least `q` with `a ≤ d * q`. -/
theorem C10_ceil_div (a d : Nat) (hd : 0 < d) (q : Nat) : a ≤ d * q ↔ ceilDiv a d ≤ q := by
  have h := ceilDiv_spec a hd
  constructor
  · intro hq
    apply Nat.le_of_not_lt
    intro hlt
    have := Nat.mul_le_mul_left d (show q + 1 ≤ ceilDiv a d from hlt)
    rw [Nat.mul_add] at this
    omega
  · intro hq
    exact Nat.le_trans h.1 (Nat.mul_le_mul_left d hq)

/-! ## C37 -/

/-- C37. `unpack` returns the two bit patterns given to `pack`. -/
theorem C37_unpack_pack (prob backoff : BitVec 32) : unpack (pack prob backoff) = (prob, backoff) :=
  unpack_pack prob backoff

end Tongrams
