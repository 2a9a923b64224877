import Verif.PropsCompactVector

/-!
# The builds with `TONGRAMS_USE_POPCNT` and `TONGRAMS_USE_PDEP`

Property C59.  The three machine instructions are given as the loops by which their manual defines them.
-/

namespace Tongrams

namespace Instr

/-- `POPCNT`: the number of bits that are set. -/
def popcntLoop (x : W) : Nat → Nat → Nat → Nat
  | 0, _, n => n
  | r + 1, i, n => popcntLoop x r (i + 1) (if x.getLsbD i then n + 1 else n)

/-- `POPCNT` of a 64-bit word. -/
def popcnt (x : W) : Nat := popcntLoop x 64 0 0

/-- `PDEP`: `m` goes through the bits of the mask; at each that is set, the next bit of the source (`k`) is written to the destination. -/
def pdepLoop (src mask : W) : Nat → Nat → Nat → W → W
  | 0, _, _, dest => dest
  | r + 1, m, k, dest =>
    if mask.getLsbD m then pdepLoop src mask r (m + 1) (k + 1) (if src.getLsbD k then dest ||| 1#64 <<< m else dest)
    else pdepLoop src mask r (m + 1) k dest

/-- `PDEP` of 64-bit words. -/
def pdep (src mask : W) : W := pdepLoop src mask 64 0 0 0#64

/-- `TZCNT`: the number of zeros below the first bit that is set; 64 if there is none. -/
def tzcntLoop (x : W) : Nat → Nat → Nat
  | 0, i => i
  | r + 1, i => if x.getLsbD i then i else tzcntLoop x r (i + 1)

/-- `TZCNT` of a 64-bit word. -/
def tzcnt (x : W) : Nat := tzcntLoop x 64 0

end Instr

/-- `util::popcount(x)` with `TONGRAMS_USE_POPCNT`, util.hpp:503-505. -/
def popcountHw (x : W) : Nat := Instr.popcnt x

/-- `util::select64_pdep_tzcnt(x, k)`, util.hpp:517-522; a shift by 64 or more is undefined. -/
def select64PdepTzcnt (x : W) (k : Nat) : Option Nat :=
  if 64 ≤ k then none else some (Instr.tzcnt (Instr.pdep (1#64 <<< k) x))

/-- `util::select_in_word(x, k)` with `TONGRAMS_USE_PDEP`, util.hpp:524-527. -/
def selectInWordHw (x : W) (k : Nat) : Option Nat := select64PdepTzcnt x k

/-! ## Proofs -/

theorem Instr.popcntLoop_spec (x : W) : ∀ r i n, popcntLoop x r i n = n + (Spec.rank x.getLsbD (i + r) - Spec.rank x.getLsbD i)
  | 0, i, n => by simp [popcntLoop]
  | r + 1, i, n => by
    rw [popcntLoop, popcntLoop_spec x r, show i + (r + 1) = i + 1 + r by omega, Spec.rank_succ]
    have := Spec.rank_mono x.getLsbD (show i + 1 ≤ i + 1 + r by omega)
    rw [Spec.rank_succ] at this
    split <;> rename_i h <;> simp only [h, if_true] at this ⊢
    · omega
    · simp only [Bool.false_eq_true, if_false] at this ⊢; omega

theorem Instr.tzcntLoop_spec (x : W) : ∀ r i, (∀ j, j < i → x.getLsbD j = false) →
    ∀ p, p < i + r → x.getLsbD p = true → (∀ j, j < p → x.getLsbD j = false) → tzcntLoop x r i = p
  | 0, i, hi, p, hp, h1, _ => by rw [hi p (by omega)] at h1; cases h1
  | r + 1, i, hi, p, hp, h1, h2 => by
    rw [tzcntLoop]
    by_cases hx : x.getLsbD i = true
    · rw [if_pos hx]
      rcases Nat.lt_trichotomy i p with h | h | h
      · rw [h2 i h] at hx; cases hx
      · exact h
      · rw [hi p h] at h1; cases h1
    · rw [if_neg hx]
      refine tzcntLoop_spec x r (i + 1) (fun j hj => ?_) p (by omega) h1 h2
      by_cases hji : j = i
      · subst hji; simpa using hx
      · exact hi j (by omega)

theorem Instr.tzcntLoop_zero : ∀ r i, tzcntLoop 0#64 r i = i + r
  | 0, i => rfl
  | r + 1, i => by rw [tzcntLoop, BitVec.getLsbD_zero, if_neg (by simp), tzcntLoop_zero r]; omega

theorem Instr.getLsbD_pow (k j : Nat) (hk : k < 64) : (1#64 <<< k).getLsbD j = decide (j = k) := by
  rw [BitVec.getLsbD_shiftLeft]
  by_cases h : j = k
  · subst h; simp [hk]
  · simp only [h, decide_false]
    rw [BitVec.getLsbD_one]
    simp
    omega

/-- With one bit set in the source, at most one bit is written: that of the `k`-th one of the mask. -/
theorem Instr.pdepLoop_spec (mask : W) {k : Nat} (hk : k < 64) : ∀ r m dest, m + r = 64 →
    pdepLoop (1#64 <<< k) mask r m (Spec.rank mask.getLsbD m) dest =
      if h : Spec.rank mask.getLsbD m ≤ k ∧ k < Spec.rank mask.getLsbD 64 then
        dest ||| 1#64 <<< (Spec.exists_select h.2).choose
      else dest
  | 0, m, dest, hm => by
    obtain rfl : m = 64 := by omega
    rw [pdepLoop, dif_neg (by omega)]
  | r + 1, m, dest, hm => by
    have hs := Spec.rank_succ mask.getLsbD m
    rw [pdepLoop]
    by_cases hb : mask.getLsbD m = true
    · rw [if_pos hb]
      rw [if_pos hb] at hs
      rw [← hs, pdepLoop_spec mask hk r (m + 1) _ (by omega), getLsbD_pow k _ hk]
      by_cases he : Spec.rank mask.getLsbD m = k
      · have hlt : k < Spec.rank mask.getLsbD 64 := by
          have := Spec.rank_mono mask.getLsbD (show m + 1 ≤ 64 by omega)
          omega
        rw [dif_neg (by omega), dif_pos ⟨by omega, hlt⟩, if_pos (by simpa using he)]
        have := (Spec.exists_select hlt).choose_spec.2
        rw [Spec.select_unique this ⟨hb, he⟩]
      · rw [if_neg (by simpa using he)]
        by_cases h2 : Spec.rank mask.getLsbD (m + 1) ≤ k ∧ k < Spec.rank mask.getLsbD 64
        · rw [dif_pos h2, dif_pos ⟨by omega, h2.2⟩]
        · rw [dif_neg h2, dif_neg (by omega)]
    · rw [if_neg hb]
      rw [if_neg hb] at hs
      have hs' : Spec.rank mask.getLsbD (m + 1) = Spec.rank mask.getLsbD m := by omega
      have := pdepLoop_spec mask hk r (m + 1) dest (by omega)
      rw [hs'] at this
      rw [this]

theorem Instr.pdep_select (x : W) {k p : Nat} (hp : p < 64) (h : Spec.IsSelect x.getLsbD k p) : pdep (1#64 <<< k) x = 1#64 <<< p := by
  have hk : k < Spec.rank x.getLsbD 64 := Spec.rank_lt_of_select h hp
  have hk64 : k < 64 := Nat.lt_of_lt_of_le hk (Spec.rank_le _ _)
  have := pdepLoop_spec x hk64 64 0 0#64 rfl
  rw [Spec.rank_zero] at this
  rw [pdep, this, dif_pos ⟨Nat.zero_le _, hk⟩, Spec.select_unique (Spec.exists_select hk).choose_spec.2 h]
  simp

theorem Instr.pdep_none (x : W) {k : Nat} (hk : k < 64) (h : Spec.rank x.getLsbD 64 ≤ k) : pdep (1#64 <<< k) x = 0#64 := by
  have := pdepLoop_spec x hk 64 0 0#64 rfl
  rw [Spec.rank_zero] at this
  rw [pdep, this, dif_neg (by omega)]

theorem Instr.tzcnt_pow {p : Nat} (hp : p < 64) : tzcnt (1#64 <<< p) = p := by
  refine tzcntLoop_spec _ 64 0 (fun j hj => by omega) p (by omega) (by rw [getLsbD_pow p p hp]; simp) fun j hj => ?_
  rw [getLsbD_pow p j hp]
  simp
  omega

/-! ## Properties -/

/-- **C59**: the `POPCNT` instruction and the portable code compute the same number for every word. -/
theorem C59_popcount_variants_agree (x : W) : popcountHw x = popcount x := by
  rw [popcount_spec, popcountHw, Instr.popcnt, Instr.popcntLoop_spec]
  simp

/-- **C59**: `select_in_word` by `PDEP` and `TZCNT` is the position of the `k`-th one, and so agrees with the portable code, for every word and every `k` below
the number of its ones. -/
theorem C59_select_variants_agree (x : W) (k : Nat) (hk : k < ((List.range 64).countP fun i => x.getLsbD i)) :
    selectInWordHw x k = selectInWord x k ∧
    ∃ p, selectInWordHw x k = some p ∧ p < 64 ∧ x.getLsbD p = true ∧ ((List.range p).countP fun i => x.getLsbD i) = k := by
  obtain ⟨p, h1, h2, h3, h4⟩ := C10_select_in_word x k hk
  have hk64 : k < 64 := Nat.lt_of_lt_of_le hk (Spec.rank_le x.getLsbD 64)
  have : selectInWordHw x k = some p := by
    rw [selectInWordHw, select64PdepTzcnt, if_neg (by omega), Instr.pdep_select x h2 ⟨h3, h4⟩, Instr.tzcnt_pow h2]
  exact ⟨by rw [this, h1], p, this, h2, h3, h4⟩

theorem selectInWord_out (x : W) (k : Nat) (h1 : popcount x ≤ k) (h2 : k < 2 ^ 56) : selectInWord x k = none := by
  rw [popcount_spec] at h1
  obtain ⟨c0, c1, c2, c3, c4, c5, c6, c7, hc, h0, h1', h2', h3, h4, h5, h6, h7, e⟩ := byteSums_eq x
  have hS := sumBytes_list _ _ _ _ _ _ _ _ _ hc
  have hkS : c0 + c1 + c2 + c3 + c4 + c5 + c6 + c7 ≤ k := by
    have h8 : Spec.rank x.toNat.testBit 64 = sumBytes x.toNat 8 := rank_byte x.toNat 8 0 (by omega)
    rw [rank_getLsbD, h8, hS 8 (by omega)] at h1
    exact h1
  clear hc hS h1
  generalize e0 : c0 = s0 at *
  generalize e1 : s0 + c1 = s1 at *
  generalize e2 : s1 + c2 = s2 at *
  generalize e3 : s2 + c3 = s3 at *
  generalize e4 : s3 + c4 = s4 at *
  generalize e5 : s4 + c5 = s5 at *
  generalize e6 : s5 + c6 = s6 at *
  generalize e7 : s6 + c7 = s7 at *
  have b0 : s0 ≤ 64 := by clear e; omega
  have b1 : s1 ≤ 64 := by clear e; omega
  have b2 : s2 ≤ 64 := by clear e; omega
  have b3 : s3 ≤ 64 := by clear e; omega
  have b4 : s4 ≤ 64 := by clear e; omega
  have b5 : s5 ≤ 64 := by clear e; omega
  have b6 : s6 ≤ 64 := by clear e; omega
  have b7 : s7 ≤ 64 := by clear e; omega
  have k0 : s0 ≤ k := by clear e; omega
  have k1 : s1 ≤ k := by clear e; omega
  have k2 : s2 ≤ k := by clear e; omega
  have k3 : s3 ≤ k := by clear e; omega
  have k4 : s4 ≤ k := by clear e; omega
  have k5 : s5 ≤ k := by clear e; omega
  have k6 : s6 ≤ k := by clear e; omega
  have k7 : s7 ≤ k := by clear e; omega
  clear e0 e1 e2 e3 e4 e5 e6 e7
  unfold selectInWord
  simp only
  by_cases hk : k < 128
  · have hgeq := geq_bytes k s0 s1 s2 s3 s4 s5 s6 s7 hk b0 b1 b2 b3 b4 b5 b6 b7 _ e
    have hpop := popcount_geq (decide (s0 ≤ k)) (decide (s1 ≤ k)) (decide (s2 ≤ k))
      (decide (s3 ≤ k)) (decide (s4 ≤ k)) (decide (s5 ≤ k)) (decide (s6 ≤ k))
      (decide (s7 ≤ k)) _ (by simp only [decide_eq_true_eq]; exact hgeq)
    rw [hpop]
    simp only [k0, k1, k2, k3, k4, k5, k6, k7, decide_true, Bool.toNat_true]
    rfl
  · generalize popcount (((BitVec.ofNat 64 k * onesStep8 ||| msbsStep8) - byteCounts x * onesStep8) &&& msbsStep8) = pl
    by_cases hpl : 64 ≤ pl * 8
    · rw [if_pos hpl]
    · rw [if_neg hpl]
      have hprev := prev_lemma s0 s1 s2 s3 s4 s5 s6 s7 (by omega) (by omega) (by omega) (by omega)
        (by omega) (by omega) (by omega) _ e pl (by omega)
      have hle : [0, s0, s1, s2, s3, s4, s5, s6, s7].getD pl 0 ≤ 64 := by
        match pl, hpl with
        | 0, _ => simp
        | 1, _ => simp; omega
        | 2, _ => simp; omega
        | 3, _ => simp; omega
        | 4, _ => simp; omega
        | 5, _ => simp; omega
        | 6, _ => simp; omega
        | 7, _ => simp; omega
        | n + 8, h => omega
      rw [← hprev] at hle
      generalize ((byteCounts x * onesStep8) <<< 8 >>> (pl * 8)) &&& 0xFF#64 = b at hle
      have hr : (BitVec.ofNat 64 k - b).toNat = k - b.toNat := by
        rw [BitVec.toNat_sub, BitVec.toNat_ofNat]
        omega
      have hi : 2048 ≤ (((x >>> (pl * 8)) &&& 0xFF#64) ||| ((BitVec.ofNat 64 k - b) <<< 8)).toNat := by
        rw [BitVec.toNat_or]
        refine Nat.le_trans ?_ Nat.right_le_or
        rw [BitVec.toNat_shiftLeft, hr, Nat.shiftLeft_eq]
        omega
      have : selectInByte ((((x >>> (pl * 8)) &&& 0xFF#64) ||| ((BitVec.ofNat 64 k - b) <<< 8)).toNat) = none := by
        unfold selectInByte
        rw [List.getElem?_eq_none]
        exact Nat.le_trans (by decide +kernel) hi
      rw [this]
      rfl

/-- **C59**: whenever the portable code computes without undefined behaviour (for `k` below 2^56), so does the code with `PDEP`, with the same result: every
theorem of this model that tells what a function returns also holds for builds with these instructions.  Beyond the number of ones, the portable code shifts by
64 or reads outside its table, and the instructions give 64. -/
theorem C59_every_portable_result_is_kept (x : W) (k p : Nat) (hk : k < 2 ^ 56) (h : selectInWord x k = some p) : selectInWordHw x k = some p := by
  by_cases hp : k < popcount x
  · rw [popcount_spec] at hp
    rw [(C59_select_variants_agree x k hp).1, h]
  · rw [selectInWord_out x k (by omega) hk] at h
    cases h

/-- **C59**: outside the precondition (the assertion `k < popcount(x)`), the portable code has undefined behaviour and the instructions give 64. -/
theorem C59_outside_the_precondition (x : W) (k : Nat) (hk : k < 64) (h : ((List.range 64).countP fun i => x.getLsbD i) ≤ k) :
    selectInWord x k = none ∧ selectInWordHw x k = some 64 := by
  refine ⟨selectInWord_out x k (by rw [popcount_spec]; exact h) (by omega), ?_⟩
  rw [selectInWordHw, select64PdepTzcnt, if_neg (by omega), Instr.pdep_none x hk h]
  show some (Instr.tzcntLoop 0#64 64 0) = _
  rw [Instr.tzcntLoop_zero]

/-- The hypotheses are met: the third one of a word, and a fourth that is not there. -/
example : selectInWordHw 0x8000000000000101#64 2 = some 63 ∧ selectInWord 0x8000000000000101#64 2 = some 63 ∧
    selectInWord 0x8000000000000101#64 3 = none ∧ selectInWordHw 0x8000000000000101#64 3 = some 64 ∧ popcountHw 0x8000000000000101#64 = 3 := by decide +kernel

/-- `PDEP` and `TZCNT` of small words. -/
example : Instr.pdep 0b10110#64 0b1100101010#64 = 0b1000101000#64 ∧ Instr.tzcnt 0b1000#64 = 3 ∧ Instr.tzcnt 0#64 = 64 := by decide +kernel

end Tongrams
