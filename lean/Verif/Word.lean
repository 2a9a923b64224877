/-!
# Words, word vectors and the bit-field accesses shared by all vectors

`W` models `uint64_t`, `List W` models `std::vector<uint64_t>`.
An access outside the vector is undefined behaviour in C++; it is the outcome `none` here.
-/

namespace Tongrams

/-- `uint64_t`. -/
abbrev W := BitVec 64

/-- Specification: the `i`-th bit of a vector of words (bits are numbered from the least significant
bit of word 0).  Bits outside of the vector read as `false`; the code never gets to see them. -/
def bitAt (ws : List W) (i : Nat) : Bool := (ws.getD (i / 64) 0).getLsbD (i % 64)

/-- `essentials::words_for(bits)`: number of 64-bit words needed for `n` bits
(external/essentials, assumed to be the ceiling of `n/64`). -/
def wordsFor (n : Nat) : Nat := (n + 63) / 64

/-- `m_bits[i]` as an rvalue. -/
def rd (ws : List W) (i : Nat) : Option W := ws[i]?

/-- `m_bits[i] = f(m_bits[i])`. -/
def wr (ws : List W) (i : Nat) (f : W → W) : Option (List W) :=
  match ws[i]? with
  | some w => some (ws.set i (f w))
  | none => none

/-- The mask `-(w == 64) | ((1ULL << w) - 1)` of compact_vector.hpp:68,86,224 and bit_vector.hpp:252.
`1ULL << 64` is undefined in C++; `junk` stands for whatever value the machine produces. -/
def maskJ (junk : W) (w : Nat) : W :=
  (if w = 64 then BitVec.allOnes 64 else 0#64) ||| ((if w < 64 then (1#64 <<< w) else junk) - 1#64)

/-- The mask with `w` low ones (what `maskJ` evaluates to for any `junk`, see `maskJ_eq`). -/
def maskOf (w : Nat) : W := if w = 64 then BitVec.allOnes 64 else (1#64 <<< w) - 1#64

theorem getLsbD_maskOf {w : Nat} (hw : w ≤ 64) (j : Nat) :
    (maskOf w).getLsbD j = decide (j < w) := by
  unfold maskOf
  split
  · subst w; exact BitVec.getLsbD_allOnes
  · have hlt : w < 64 := by omega
    have h1 : (1#64 <<< w) - 1#64 = BitVec.ofNat 64 (2^w - 1) := by
      apply BitVec.eq_of_toNat_eq
      have h2 : 2 ^ w < 2 ^ 64 := Nat.pow_lt_pow_right (by omega) hlt
      have h3 : 0 < 2 ^ w := Nat.two_pow_pos w
      simp only [BitVec.toNat_sub, BitVec.toNat_shiftLeft, BitVec.toNat_ofNat]
      rw [show (1 % 2 ^ 64) = 1 by decide, Nat.one_shiftLeft, Nat.mod_eq_of_lt h2]
      omega
    rw [h1]
    simp only [BitVec.getLsbD_ofNat, Nat.testBit_two_pow_sub_one]
    by_cases hj : j < w
    · simp [hj]; omega
    · simp [hj]

/-- The undefined shift never matters: for each legal width the mask is the one with `w` low ones. -/
theorem maskJ_eq (junk : W) {w : Nat} (hw : w ≤ 64) : maskJ junk w = maskOf w := by
  unfold maskJ maskOf
  by_cases h : w = 64
  · subst h; rw [if_pos rfl, if_pos rfl, BitVec.allOnes_or]
  · have : w < 64 := by omega
    simp [h, this]

/-- Read of a `len`-bit field at bit position `pos`:
compact_vector.hpp:149-158 (builder::operator[]), 243-252 (operator[]), 43-50 (iterator::read),
bit_vector.hpp:245-259 (get_bits), the same expression each time. -/
def readField (ws : List W) (pos len : Nat) (mask : W) : Option W :=
  let block := pos / 64
  let shift := pos % 64
  if shift + len ≤ 64 then do
    let a ← rd ws block
    return (a >>> shift) &&& mask
  else do
    let a ← rd ws block
    let b ← rd ws (block + 1)
    return (a >>> shift) ||| ((b <<< (64 - shift)) &&& mask)

/-- Write of a `len`-bit field at bit position `pos`:
compact_vector.hpp:113-124 (builder::set), bit_vector.hpp:109-119 (set_bits). -/
def writeField (ws : List W) (pos len : Nat) (mask v : W) : Option (List W) := do
  let block := pos / 64
  let shift := pos % 64
  let ws ← wr ws block (fun x => x &&& ~~~(mask <<< shift))
  let ws ← wr ws block (fun x => x ||| (v <<< shift))
  let res_shift := 64 - shift
  if res_shift < len then do
    let ws ← wr ws (block + 1) (fun x => x &&& ~~~(mask >>> res_shift))
    wr ws (block + 1) (fun x => x ||| (v >>> res_shift))
  else
    return ws

/-! ## Elementary facts -/

theorem bitAt_of_ge {ws : List W} {i : Nat} (h : 64 * ws.length ≤ i) : bitAt ws i = false := by
  unfold bitAt
  rw [List.getD_eq_getElem?_getD, List.getElem?_eq_none (by omega)]
  simp

theorem rd_of_lt {ws : List W} {i : Nat} (h : i < ws.length) : rd ws i = some (ws.getD i 0) := by
  simp [rd, h]

theorem rd_eq_none {ws : List W} {i : Nat} (h : ws.length ≤ i) : rd ws i = none := by
  simp [rd, h]

theorem wr_of_lt {ws : List W} {i : Nat} (h : i < ws.length) (f : W → W) :
    wr ws i f = some (ws.set i (f (ws.getD i 0))) := by
  simp [wr, h]

theorem getLsbD_getD (ws : List W) (k j : Nat) (hj : j < 64) :
    (ws.getD k 0).getLsbD j = bitAt ws (64 * k + j) := by
  unfold bitAt
  have h1 : (64 * k + j) / 64 = k := by omega
  have h2 : (64 * k + j) % 64 = j := by omega
  rw [h1, h2]

/-- Overwriting word `k` changes only the bits of that word. -/
theorem bitAt_set (ws : List W) (k : Nat) (x : W) (hk : k < ws.length) (i : Nat) :
    bitAt (ws.set k x) i = if i / 64 = k then x.getLsbD (i % 64) else bitAt ws i := by
  unfold bitAt
  simp only [List.getD_eq_getElem?_getD, List.getElem?_set]
  by_cases h : k = i / 64
  · subst h; simp [hk]
  · have h' : ¬ i / 64 = k := fun e => h e.symm
    simp [h, h']

theorem getD_set_self (ws : List W) (k : Nat) (x : W) (hk : k < ws.length) :
    (ws.set k x).getD k 0 = x := by
  simp [hk]

theorem getD_set_ne (ws : List W) (k k' : Nat) (x : W) (h : k ≠ k') :
    (ws.set k x).getD k' 0 = ws.getD k' 0 := by
  simp [h]

theorem bitAt_replicate_zero (n i : Nat) : bitAt (List.replicate n 0#64) i = false := by
  unfold bitAt
  simp only [List.getD_eq_getElem?_getD, List.getElem?_replicate]
  split <;> simp

theorem bitAt_append_left {ws : List W} (ws' : List W) {i : Nat} (h : i < 64 * ws.length) :
    bitAt (ws ++ ws') i = bitAt ws i := by
  unfold bitAt
  rw [List.getD_eq_getElem?_getD, List.getD_eq_getElem?_getD, List.getElem?_append_left (by omega)]

theorem bitAt_append_right {ws : List W} (ws' : List W) {i : Nat} (h : 64 * ws.length ≤ i) :
    bitAt (ws ++ ws') i = bitAt ws' (i - 64 * ws.length) := by
  unfold bitAt
  rw [List.getD_eq_getElem?_getD, List.getD_eq_getElem?_getD, List.getElem?_append_right (by omega)]
  have h1 : (i - 64 * ws.length) / 64 = i / 64 - ws.length := by omega
  have h2 : (i - 64 * ws.length) % 64 = i % 64 := by omega
  rw [h1, h2]

/-- Two equally long word vectors with the same bits are equal. -/
theorem words_ext {ws ws' : List W} (hl : ws.length = ws'.length)
    (h : ∀ i, bitAt ws i = bitAt ws' i) : ws = ws' := by
  apply List.ext_getElem hl
  intro k h1 h2
  apply BitVec.eq_of_getLsbD_eq
  intro j hj
  have := h (64 * k + j)
  rw [← getLsbD_getD _ _ _ hj, ← getLsbD_getD _ _ _ hj] at this
  simpa [h1, h2] using this

theorem bit_high_false {v : W} {len : Nat} (h : v.toNat < 2 ^ len) {j : Nat} (hj : len ≤ j) :
    v.getLsbD j = false := by
  rw [← BitVec.testBit_toNat]
  exact Nat.testBit_lt_two_pow (Nat.lt_of_lt_of_le h (Nat.pow_le_pow_right (by omega) hj))

theorem toNat_lt_of_bits {v : W} {len : Nat} (h : ∀ j, len ≤ j → v.getLsbD j = false) :
    v.toNat < 2 ^ len := by
  apply Nat.lt_of_not_le
  intro hle
  obtain ⟨i, hi, hb⟩ := Nat.exists_ge_and_testBit_of_ge_two_pow hle
  have := h i hi
  rw [← BitVec.testBit_toNat] at this
  rw [this] at hb
  exact absurd hb (by decide)

/-! ## Specification of the field accesses -/

theorem readField_spec (ws : List W) (pos len : Nat) (h1 : 1 ≤ len) (h64 : len ≤ 64)
    (hin : pos + len ≤ 64 * ws.length) :
    ∃ x, readField ws pos len (maskOf len) = some x ∧
      ∀ j, x.getLsbD j = (decide (j < len) && bitAt ws (pos + j)) := by
  unfold readField
  have hb : pos / 64 < ws.length := by omega
  by_cases hc : pos % 64 + len ≤ 64
  · simp only [hc, if_true, rd_of_lt hb, Option.bind_eq_bind, Option.bind_some, Option.pure_def]
    refine ⟨_, rfl, fun j => ?_⟩
    rw [BitVec.getLsbD_and, BitVec.getLsbD_ushiftRight, getLsbD_maskOf h64]
    by_cases hj : j < len
    · have : pos % 64 + j < 64 := by omega
      rw [getLsbD_getD _ _ _ this]
      have : 64 * (pos / 64) + (pos % 64 + j) = pos + j := by omega
      simp [hj, this]
    · simp [hj]
  · have hb1 : pos / 64 + 1 < ws.length := by omega
    simp only [hc, if_false, rd_of_lt hb, rd_of_lt hb1, Option.bind_eq_bind, Option.bind_some,
      Option.pure_def]
    refine ⟨_, rfl, fun j => ?_⟩
    rw [BitVec.getLsbD_or, BitVec.getLsbD_and, BitVec.getLsbD_ushiftRight, BitVec.getLsbD_shiftLeft,
      getLsbD_maskOf h64]
    by_cases hj : j < len
    · by_cases hs : pos % 64 + j < 64
      · rw [getLsbD_getD _ _ _ hs]
        have : 64 * (pos / 64) + (pos % 64 + j) = pos + j := by omega
        have hk : j < 64 - pos % 64 := by omega
        simp [hj, this, hk]
      · have hk : ¬ j < 64 - pos % 64 := by omega
        rw [BitVec.getLsbD_of_ge _ _ (by omega), getLsbD_getD _ _ _ (by omega)]
        have : 64 * (pos / 64 + 1) + (j - (64 - pos % 64)) = pos + j := by omega
        have h6 : j < 64 := by omega
        rw [this]; simp [hj, hk, h6]
    · rw [BitVec.getLsbD_of_ge _ _ (by omega)]
      simp [hj]

theorem writeField_spec (ws : List W) (pos len : Nat) (v : W) (h1 : 1 ≤ len) (h64 : len ≤ 64)
    (hin : pos + len ≤ 64 * ws.length) (hv : v.toNat < 2 ^ len) :
    ∃ ws', writeField ws pos len (maskOf len) v = some ws' ∧ ws'.length = ws.length ∧
      ∀ i, bitAt ws' i =
        if pos ≤ i ∧ i < pos + len then v.getLsbD (i - pos) else bitAt ws i := by
  unfold writeField
  have hb : pos / 64 < ws.length := by omega
  simp only [wr_of_lt hb, Option.bind_eq_bind, Option.bind_some, Option.pure_def]
  rw [wr_of_lt (by simpa using hb)]
  simp only [getD_set_self _ _ _ hb, List.set_set, Option.bind_some]
  by_cases hc : 64 - pos % 64 < len
  · have hb1 : pos / 64 + 1 < ws.length := by omega
    simp only [hc, if_true]
    rw [wr_of_lt (by simpa using hb1)]
    simp only [Option.bind_some]
    rw [wr_of_lt (by simpa using hb1)]
    refine ⟨_, rfl, by simp, fun i => ?_⟩
    rw [getD_set_self _ _ _ (by simpa using hb1), getD_set_ne _ _ _ _ (by omega), List.set_set,
      bitAt_set _ _ _ (by simpa using hb1), bitAt_set _ _ _ hb]
    by_cases hi1 : i / 64 = pos / 64 + 1
    · simp only [hi1, if_true]
      rw [BitVec.getLsbD_or, BitVec.getLsbD_and, BitVec.getLsbD_not, BitVec.getLsbD_ushiftRight,
        BitVec.getLsbD_ushiftRight, getLsbD_maskOf h64, getLsbD_getD _ _ _ (by omega)]
      have e1 : 64 * (pos / 64 + 1) + i % 64 = i := by omega
      have e2 : 64 - pos % 64 + i % 64 = i - pos := by omega
      have e3 : i % 64 < 64 := by omega
      rw [e1, e2]
      by_cases hr : i < pos + len
      · have c1 : pos ≤ i ∧ i < pos + len := by omega
        have c2 : i - pos < len := by omega
        simp [c1, c2]
      · have c1 : ¬ (pos ≤ i ∧ i < pos + len) := by omega
        have c2 : ¬ i - pos < len := by omega
        rw [bit_high_false hv (by omega : len ≤ i - pos)]
        simp [c1, c2, e3]
    · simp only [hi1, if_false]
      by_cases hi0 : i / 64 = pos / 64
      · simp only [hi0, if_true]
        rw [BitVec.getLsbD_or, BitVec.getLsbD_and, BitVec.getLsbD_not, BitVec.getLsbD_shiftLeft,
          BitVec.getLsbD_shiftLeft, getLsbD_maskOf h64, getLsbD_getD _ _ _ (by omega)]
        have e1 : 64 * (pos / 64) + i % 64 = i := by omega
        have e3 : i % 64 < 64 := by omega
        rw [e1]
        by_cases hr : pos ≤ i
        · have c1 : pos ≤ i ∧ i < pos + len := by omega
          have c2 : ¬ i % 64 < pos % 64 := by omega
          have c3 : i % 64 - pos % 64 = i - pos := by omega
          have c4 : i - pos < len := by omega
          simp [c1, c2, c3, c4, e3]
        · have c1 : ¬ (pos ≤ i ∧ i < pos + len) := by omega
          have c2 : i % 64 < pos % 64 := by omega
          simp [c1, c2, e3]
      · simp only [hi0, if_false]
        rw [if_neg (by omega)]
  · simp only [hc, if_false]
    refine ⟨_, rfl, by simp, fun i => ?_⟩
    rw [bitAt_set _ _ _ hb]
    by_cases hi0 : i / 64 = pos / 64
    · simp only [hi0, if_true]
      rw [BitVec.getLsbD_or, BitVec.getLsbD_and, BitVec.getLsbD_not, BitVec.getLsbD_shiftLeft,
        BitVec.getLsbD_shiftLeft, getLsbD_maskOf h64, getLsbD_getD _ _ _ (by omega)]
      have e1 : 64 * (pos / 64) + i % 64 = i := by omega
      have e3 : i % 64 < 64 := by omega
      rw [e1]
      by_cases hr : pos ≤ i
      · have c2 : ¬ i % 64 < pos % 64 := by omega
        have c3 : i % 64 - pos % 64 = i - pos := by omega
        by_cases hr2 : i < pos + len
        · have c1 : pos ≤ i ∧ i < pos + len := by omega
          have c4 : i - pos < len := by omega
          simp [c1, c2, c3, c4, e3]
        · have c1 : ¬ (pos ≤ i ∧ i < pos + len) := by omega
          have c4 : ¬ i - pos < len := by omega
          rw [c3, bit_high_false hv (by omega : len ≤ i - pos)]
          simp [c1, c2, c4, e3]
      · have c1 : ¬ (pos ≤ i ∧ i < pos + len) := by omega
        have c2 : i % 64 < pos % 64 := by omega
        simp [c1, c2, e3]
    · simp only [hi0, if_false]
      rw [if_neg (by omega)]

end Tongrams
