import Verif.Util

/-!
# include/vectors/bit_vector.hpp: bit_vector_builder and bit_vector
-/

namespace Tongrams

/-- `bit_vector_builder`, members: bit_vector.hpp:196-198. The pointer `m_cur_word` is modelled
as the index of the word it points to (`none` = uninitialised). -/
structure BVBuilder where
  bits : List W
  size : Nat
  curWord : Option Nat

/-- `bit_vector`, members: bit_vector.hpp:377-378. -/
structure BitVector where
  size : Nat
  bits : List W
deriving DecidableEq

/-- `std::vector::resize(n)` (new words are zero). -/
def resizeWords (ws : List W) (n : Nat) : List W := ws.take n ++ List.replicate (n - ws.length) 0

namespace BVBuilder

/-- `bit_vector_builder(size, init)`, bit_vector.hpp:67-76. -/
def new (size : Nat) (init : Bool) : BVBuilder :=
  let bits := List.replicate (wordsFor size) (if init then BitVec.allOnes 64 else 0#64)
  if size ≠ 0 then
    let last := bits.length - 1
    let bits := if init ∧ size % 64 ≠ 0 then
        bits.set last (bits.getD last 0 >>> (64 - size % 64)) else bits
    { bits := bits, size := size, curWord := some last }
  else { bits := bits, size := size, curWord := none }

/-- `init()`, bit_vector.hpp:78-81. -/
def clear (b : BVBuilder) : BVBuilder := { b with size := 0, bits := [] }

/-- `zero_extend(n)`, bit_vector.hpp:87-94. -/
def zeroExtend (b : BVBuilder) (n : Nat) : BVBuilder :=
  let size := b.size + n
  let needed := wordsFor size - b.bits.length
  if needed ≠ 0 then
    let bits := b.bits ++ List.replicate needed 0
    { bits := bits, size := size, curWord := some (bits.length - 1) }
  else { b with size := size }

/-- `set(pos, b)`, bit_vector.hpp:96-101. -/
def set (b : BVBuilder) (pos : Nat) (v : Bool) : Option BVBuilder := do
  let word := pos / 64
  let posInWord := pos % 64
  let bits ← wr b.bits word (fun x => x &&& ~~~(1#64 <<< posInWord))
  let bits ← wr bits word (fun x => x ||| ((if v then 1#64 else 0#64) <<< posInWord))
  return { b with bits := bits }

/-- `set_bits(pos, bits, len)`, bit_vector.hpp:103-120 (asserts disabled). -/
def setBits (b : BVBuilder) (pos : Nat) (v : W) (len : Nat) : Option BVBuilder :=
  if len = 0 then some b
  else do
    let mask := if len = 64 then BitVec.allOnes 64 else (1#64 <<< len) - 1#64
    let bits ← writeField b.bits pos len mask v
    return { b with bits := bits }

/-- `append_bits(bits, len)`, bit_vector.hpp:122-137. -/
def appendBits (b : BVBuilder) (v : W) (len : Nat) : Option BVBuilder :=
  if len = 0 then some b
  else
    let posInWord := b.size % 64
    let size := b.size + len
    if posInWord = 0 then
      let bits := b.bits ++ [v]
      some { bits := bits, size := size, curWord := some (bits.length - 1) }
    else do
      let cur ← b.curWord
      let bits ← wr b.bits cur (fun x => x ||| (v <<< posInWord))
      let bits := if len > 64 - posInWord then bits ++ [v >>> (64 - posInWord)] else bits
      return { bits := bits, size := size, curWord := some (bits.length - 1) }

/-- The unaligned copy loop of `append`, bit_vector.hpp:162-171, on the remaining words of `rhs`;
`cur` is the index of `*cur_word`. -/
def appendLoop (shift : Nat) : List W → List W → Nat → Option (List W)
  | [], _, _ => none
  | [w], bits, cur => do
    let bits ← wr bits cur (fun x => x ||| (w <<< shift))
    if cur < bits.length - 1 then wr bits (cur + 1) (fun _ => w >>> (64 - shift)) else return bits
  | w :: rest, bits, cur => do
    let bits ← wr bits cur (fun x => x ||| (w <<< shift))
    let bits ← wr bits (cur + 1) (fun _ => w >>> (64 - shift))
    appendLoop shift rest bits (cur + 1)

/-- `std::copy(ws.begin(), ws.end(), bits.begin() + pos)`. -/
def copyAt (bits : List W) (pos : Nat) (ws : List W) : Option (List W) :=
  if pos + ws.length ≤ bits.length then some (bits.take pos ++ ws ++ bits.drop (pos + ws.length))
  else none

/-- `append(rhs)`, bit_vector.hpp:150-174. -/
def append (b rhs : BVBuilder) : Option BVBuilder :=
  if rhs.size = 0 then some b
  else do
    let pos := b.bits.length
    let shift := b.size % 64
    let size := b.size + rhs.size
    let bits := resizeWords b.bits (wordsFor size)
    let bits ← if shift = 0 then copyAt bits pos rhs.bits
      else if pos = 0 then none else appendLoop shift rhs.bits bits (pos - 1)
    return { bits := bits, size := size, curWord := some (bits.length - 1) }

/-- Specification: the list of bits a builder stands for. -/
def toBools (b : BVBuilder) : List Bool := (List.range b.size).map (bitAt b.bits)

/-- Invariant of all builders. -/
structure WF (b : BVBuilder) : Prop where
  len : b.bits.length = wordsFor b.size
  high : ∀ i, b.size ≤ i → bitAt b.bits i = false
  cur : b.size ≠ 0 → b.curWord = some (b.bits.length - 1)

end BVBuilder

namespace BitVector

/-- `bit_vector::build(builder*)`, bit_vector.hpp:204-211. -/
def ofBuilder (b : BVBuilder) : BitVector := { size := b.size, bits := b.bits }

/-- `operator[]`, bit_vector.hpp:238-243. -/
def get (bv : BitVector) (i : Nat) : Option W := do
  let w ← rd bv.bits (i / 64)
  return (w >>> (i % 64)) &&& 1#64

/-- `get_bits(pos, len)`, bit_vector.hpp:245-259. -/
def getBits (bv : BitVector) (pos len : Nat) : Option W :=
  if len = 0 then some 0 else readField bv.bits pos len (maskOf len)

/-- `get_word64(pos)`, bit_vector.hpp:269-278 (and 139-148 in the builder). -/
def getWord64 (ws : List W) (pos : Nat) : Option W := do
  let block := pos / 64
  let shift := pos % 64
  let word ← rd ws block
  let word := word >>> shift
  if shift ≠ 0 ∧ block + 1 < ws.length then do
    let w2 ← rd ws (block + 1)
    return word ||| (w2 <<< (64 - shift))
  else return word

/-- `get_word56(pos)`, bit_vector.hpp:262-266: an 8-byte load at the byte containing `pos`; `junk` is
the memory following the vector. -/
def getWord56 (ws junk : List W) (pos : Nat) : Option W :=
  let o := pos / 8
  let m := ws ++ junk
  if o % 8 = 0 then do
    let a ← rd m (o / 8)
    return a >>> (pos % 8)
  else do
    let a ← rd m (o / 8)
    let b ← rd m (o / 8 + 1)
    return ((a >>> (8 * (o % 8))) ||| (b <<< (64 - 8 * (o % 8)))) >>> (pos % 8)

/-- The loop of `predecessor1`, bit_vector.hpp:287-291; at block 0 the code would read
`m_bits[-1]` (`none`). -/
def predLoop (ws : List W) : Nat → W → Option Nat
  | block, word =>
    match msb? word with
    | some r => some (block * 64 + r)
    | none =>
      match block with
      | 0 => none
      | block + 1 =>
        match rd ws block with
        | none => none
        | some w => predLoop ws block w

/-- `predecessor1(pos)`, bit_vector.hpp:280-293. -/
def predecessor1 (ws : List W) (pos : Nat) : Option Nat := do
  let block := pos / 64
  let shift := 64 - pos % 64 - 1
  let word ← rd ws block
  predLoop ws block ((word <<< shift) >>> shift)

end BitVector

/-! ## Proofs: builder -/

theorem length_resizeWords (ws : List W) (n : Nat) : (resizeWords ws n).length = n := by
  simp [resizeWords]; omega

theorem bitAt_resizeWords {ws : List W} {n : Nat} (h : ws.length ≤ n) (i : Nat) :
    bitAt (resizeWords ws n) i = bitAt ws i := by
  unfold resizeWords
  rw [List.take_of_length_le h]
  by_cases hi : i < 64 * ws.length
  · exact bitAt_append_left _ hi
  · rw [bitAt_append_right _ (by omega), bitAt_of_ge (ws := ws) (by omega)]
    exact bitAt_replicate_zero _ _

theorem bitAt_append_zeros (ws : List W) (n i : Nat) :
    bitAt (ws ++ List.replicate n 0) i = bitAt ws i := by
  by_cases hi : i < 64 * ws.length
  · exact bitAt_append_left _ hi
  · rw [bitAt_append_right _ (by omega), bitAt_of_ge (ws := ws) (by omega)]
    exact bitAt_replicate_zero _ _

theorem getLsbD_one64 (k : Nat) : (1#64).getLsbD k = decide (k = 0) := by
  rw [BitVec.getLsbD_ofNat]
  by_cases hk : k = 0
  · subst hk; decide
  · have : Nat.testBit 1 k = false := by
      cases h : Nat.testBit 1 k with
      | false => rfl
      | true => exact absurd (Nat.testBit_one_eq_true_iff_self_eq_zero.1 h) hk
    simp [hk, this]

theorem bitAt_single (w : W) (i : Nat) : bitAt [w] i = w.getLsbD i := by
  unfold bitAt
  by_cases h : i < 64
  · have : i / 64 = 0 := by omega
    have h2 : i % 64 = i := by omega
    rw [this, h2]; rfl
  · rw [BitVec.getLsbD_of_ge w i (by omega)]
    obtain ⟨k, hk⟩ : ∃ k, i / 64 = k + 1 := ⟨i / 64 - 1, by omega⟩
    rw [hk]; simp

namespace BVBuilder

theorem WF.le {b : BVBuilder} (h : b.WF) : b.size ≤ 64 * b.bits.length := by
  rw [h.len]; unfold wordsFor; omega

theorem length_toBools (b : BVBuilder) : b.toBools.length = b.size := by simp [toBools]

theorem getElem_toBools (b : BVBuilder) (i : Nat) (h : i < b.toBools.length) :
    b.toBools[i] = bitAt b.bits i := by simp [toBools]

theorem toBools_ext {b : BVBuilder} {l : List Bool} (hl : b.size = l.length)
    (h : ∀ i (hi : i < l.length), bitAt b.bits i = l[i]) : b.toBools = l := by
  apply List.ext_getElem (by rw [length_toBools, hl])
  intro i h1 h2
  rw [getElem_toBools]; exact h i h2

theorem new_wf (size : Nat) (init : Bool) :
    (new size init).WF ∧ (new size init).toBools = List.replicate size init := by
  have hsz : (new size init).size = size := by
    unfold new; simp only; split <;> rfl
  have hbits : ∀ i, bitAt (new size init).bits i = (decide (i < size) && init) ∧
      (new size init).bits.length = wordsFor size := by
    intro i
    unfold new
    cases init with
    | false =>
      simp only [Bool.false_eq_true, false_and, if_false, Bool.and_false]
      split <;> exact ⟨bitAt_replicate_zero _ _, by simp⟩
    | true =>
      have hall : ∀ i, bitAt (List.replicate (wordsFor size) (BitVec.allOnes 64)) i =
          decide (i < 64 * wordsFor size) := by
        intro i
        unfold bitAt
        simp only [List.getD_eq_getElem?_getD, List.getElem?_replicate]
        by_cases hi : i / 64 < wordsFor size
        · rw [if_pos hi, Option.getD_some, BitVec.getLsbD_allOnes]
          have h1 : i < 64 * wordsFor size := by omega
          have h2 : i % 64 < 64 := by omega
          simp [h1, h2]
        · have h1 : ¬ i < 64 * wordsFor size := by omega
          rw [if_neg hi]; simp [h1]
      by_cases h0 : size = 0
      · subst h0
        simp only [ne_eq, not_true, if_false, if_true]
        refine ⟨?_, by simp⟩
        rw [hall]; simp [wordsFor]
      · simp only [ne_eq, h0, not_false_eq_true, if_true, true_and, Bool.and_true]
        by_cases hm : size % 64 = 0
        · simp only [hm, not_true, if_false, List.length_replicate, and_true]
          rw [hall]
          have : 64 * wordsFor size = size := by unfold wordsFor; omega
          rw [this]
        · simp only [hm, not_false_eq_true, if_true]
          have hlen : (List.replicate (wordsFor size) (BitVec.allOnes 64)).length - 1 <
              (List.replicate (wordsFor size) (BitVec.allOnes 64)).length := by
            simp only [List.length_replicate]; unfold wordsFor; omega
          refine ⟨?_, by simp⟩
          rw [bitAt_set _ _ _ hlen, hall]
          simp only [List.length_replicate] at hlen ⊢
          have hg : (List.replicate (wordsFor size) (BitVec.allOnes 64)).getD (wordsFor size - 1) 0 =
              BitVec.allOnes 64 := by
            simp [List.getD_eq_getElem?_getD, hlen]
          rw [hg, BitVec.getLsbD_ushiftRight, BitVec.getLsbD_allOnes]
          unfold wordsFor at *
          by_cases hb : i / 64 = (size + 63) / 64 - 1
          · rw [if_pos hb]; congr 1; apply propext; constructor <;> intro <;> omega
          · rw [if_neg hb]; congr 1; apply propext; constructor <;> intro <;> omega
  refine ⟨⟨?_, ?_, ?_⟩, ?_⟩
  · rw [hsz]; exact (hbits 0).2
  · intro i hi; rw [(hbits i).1]; rw [hsz] at hi
    have : ¬ i < size := by omega
    simp [this]
  · intro h0
    rw [hsz] at h0
    rw [(hbits 0).2]
    unfold new; simp [h0]
  · apply toBools_ext (by simp [hsz])
    intro i hi
    simp only [List.length_replicate] at hi
    rw [(hbits i).1]; simp [hi]

theorem clear_wf (b : BVBuilder) : b.clear.WF ∧ b.clear.toBools = [] := by
  refine ⟨⟨?_, ?_, ?_⟩, rfl⟩
  · simp [clear, wordsFor]
  · intro i _; simp [clear, bitAt]
  · simp [clear]

theorem zeroExtend_wf {b : BVBuilder} (h : b.WF) (n : Nat) :
    (b.zeroExtend n).WF ∧ (b.zeroExtend n).toBools = b.toBools ++ List.replicate n false := by
  have hsize : (b.zeroExtend n).size = b.size + n := by unfold zeroExtend; simp only; split <;> rfl
  have hbit : ∀ i, bitAt (b.zeroExtend n).bits i = bitAt b.bits i := by
    intro i; unfold zeroExtend; simp only; split
    · exact bitAt_append_zeros _ _ _
    · rfl
  have hlen := h.len
  refine ⟨⟨?_, ?_, ?_⟩, ?_⟩
  · rw [hsize]; unfold zeroExtend; simp only
    split
    · simp only [List.length_append, List.length_replicate]; unfold wordsFor at *; omega
    · simp only; unfold wordsFor at *; omega
  · intro i hi; rw [hbit]; exact h.high i (by omega)
  · intro hne
    unfold zeroExtend; simp only
    split
    · rfl
    · rename_i hn
      by_cases h0 : b.size = 0
      · rw [hsize] at hne
        unfold wordsFor at *; omega
      · exact h.cur h0
  · apply toBools_ext (by simp [hsize, length_toBools])
    intro i hi
    simp only [List.length_append, length_toBools, List.length_replicate] at hi
    rw [hbit]
    by_cases hib : i < b.size
    · rw [List.getElem_append_left (by rw [length_toBools]; exact hib), getElem_toBools]
    · rw [List.getElem_append_right (by rw [length_toBools]; omega), h.high i (by omega)]; simp

theorem set_wf {b : BVBuilder} (h : b.WF) {pos : Nat} (hp : pos < b.size) (v : Bool) :
    ∃ b', b.set pos v = some b' ∧ b'.WF ∧ b'.toBools = b.toBools.set pos v := by
  have hle := h.le
  have hb : pos / 64 < b.bits.length := by omega
  have hset : b.set pos v = some { b with bits := (b.bits.set (pos / 64) ((b.bits.getD (pos / 64) 0 &&& ~~~(1#64 <<< (pos % 64))) ||| ((if v then 1#64 else 0#64) <<< (pos % 64)))) } := by
    unfold BVBuilder.set
    simp only [wr_of_lt hb, Option.bind_eq_bind, Option.bind_some, Option.pure_def]
    rw [wr_of_lt (by simpa using hb)]
    simp only [getD_set_self _ _ _ hb, List.set_set, Option.bind_some]
  refine ⟨_, hset, ?_⟩
  have hbit : ∀ i, bitAt (b.bits.set (pos / 64)
      ((b.bits.getD (pos / 64) 0 &&& ~~~(1#64 <<< (pos % 64))) ||| ((if v then 1#64 else 0#64) <<< (pos % 64)))) i
      = if i = pos then v else bitAt b.bits i := by
    intro i
    rw [bitAt_set _ _ _ hb]
    by_cases hi : i / 64 = pos / 64
    · rw [if_pos hi, BitVec.getLsbD_or, BitVec.getLsbD_and, BitVec.getLsbD_not, BitVec.getLsbD_shiftLeft,
        BitVec.getLsbD_shiftLeft, getLsbD_getD _ _ _ (by omega)]
      have e : 64 * (pos / 64) + i % 64 = i := by omega
      have h1 := getLsbD_one64
      have h64 : i % 64 < 64 := by omega
      rw [e]
      by_cases hip : i = pos
      · subst hip
        cases v <;> simp [h1, h64]
      · have h2 : ¬ i % 64 = pos % 64 := by omega
        have h3 : ¬ (¬ i % 64 < pos % 64 ∧ i % 64 - pos % 64 = 0) := by omega
        by_cases hlt : i % 64 < pos % 64
        · cases v <;> simp [hip, hlt, h64]
        · have h4 : ¬ i % 64 - pos % 64 = 0 := by omega
          cases v <;> simp [h1, h64, hip, h4]
    · rw [if_neg hi, if_neg (by intro e; subst e; exact hi rfl)]
  refine ⟨⟨by simpa using h.len, ?_, by simpa using h.cur⟩, ?_⟩
  · intro i hi
    rw [hbit, if_neg (by simp only at hi; omega)]
    exact h.high i hi
  · apply toBools_ext (by simp [length_toBools])
    intro i hi
    rw [hbit, List.getElem_set, getElem_toBools]
    by_cases hip : i = pos
    · simp [hip]
    · rw [if_neg hip, if_neg (fun e => hip e.symm)]

/-- the `len` low bits of `v`, least significant first -/
def _root_.Tongrams.Spec.bitsOf (v : W) (len : Nat) : List Bool := (List.range len).map v.getLsbD

theorem setBits_wf {b : BVBuilder} (h : b.WF) {pos len : Nat} {v : W} (hlen : len ≤ 64)
    (hp : pos + len ≤ b.size) (hv : v.toNat < 2 ^ len) :
    ∃ b', b.setBits pos v len = some b' ∧ b'.WF ∧
      b'.toBools = b.toBools.take pos ++ Spec.bitsOf v len ++ b.toBools.drop (pos + len) := by
  by_cases h0 : len = 0
  · subst h0
    exact ⟨b, rfl, h, by simp [Spec.bitsOf]⟩
  have hle := h.le
  obtain ⟨ws, hws, hl, hbits⟩ := writeField_spec b.bits pos len v (by omega) hlen (by omega) hv
  refine ⟨{ b with bits := ws }, ?_, ⟨?_, ?_, ?_⟩, ?_⟩
  · unfold setBits
    rw [if_neg h0]
    rw [show (have mask := (if len = 64 then BitVec.allOnes 64 else (1#64 <<< len) - 1#64);
      (do let bits ← writeField b.bits pos len mask v
          return ({ b with bits := bits } : BVBuilder) : Option BVBuilder)) =
      (writeField b.bits pos len (maskOf len) v).bind (fun bits => some { b with bits := bits }) from rfl, hws]
    rfl
  · simp only; rw [hl]; exact h.len
  · intro i hi; simp only at hi ⊢; rw [hbits, if_neg (by omega)]; exact h.high i hi
  · intro hs; simp only; rw [hl]; exact h.cur hs
  · have hlt : b.toBools.length = b.size := length_toBools b
    apply toBools_ext
    · simp [Spec.bitsOf, hlt]; omega
    · intro i hi
      simp only
      rw [hbits]
      have hi' : i < b.size := by simp [Spec.bitsOf, hlt] at hi; omega
      by_cases h1 : i < pos
      · rw [if_neg (by omega), List.getElem_append_left (by simp [Spec.bitsOf, hlt]; omega),
          List.getElem_append_left (by simp [hlt]; omega), List.getElem_take, getElem_toBools]
      · by_cases h2 : i < pos + len
        · rw [if_pos (by omega), List.getElem_append_left (by simp [Spec.bitsOf, hlt]; omega),
            List.getElem_append_right (by simp [hlt]; omega)]
          simp [Spec.bitsOf, hlt, Nat.min_eq_left (by omega : pos ≤ b.size)]
        · rw [if_neg (by omega), List.getElem_append_right (by simp [Spec.bitsOf, hlt]; omega),
            List.getElem_drop, getElem_toBools]
          congr 1
          simp [Spec.bitsOf, hlt]; omega

theorem appendBits_wf {b : BVBuilder} (h : b.WF) {len : Nat} {v : W} (hlen : len ≤ 64)
    (hv : v.toNat < 2 ^ len) :
    ∃ b', b.appendBits v len = some b' ∧ b'.WF ∧ b'.toBools = b.toBools ++ Spec.bitsOf v len := by
  by_cases h0 : len = 0
  · subst h0
    exact ⟨b, rfl, h, by simp [Spec.bitsOf]⟩
  have hl := h.len
  -- it suffices to know the bits of the result
  have key : ∀ ws : List W, ws.length = wordsFor (b.size + len) →
      (∀ i, bitAt ws i = if i < b.size then bitAt b.bits i else v.getLsbD (i - b.size)) →
      BVBuilder.WF { bits := ws, size := b.size + len, curWord := some (ws.length - 1) } ∧
      BVBuilder.toBools { bits := ws, size := b.size + len, curWord := some (ws.length - 1) } =
        b.toBools ++ Spec.bitsOf v len := by
    intro ws hw hb
    refine ⟨⟨hw, ?_, fun _ => rfl⟩, ?_⟩
    · intro i hi; simp only at hi ⊢
      rw [hb, if_neg (by omega)]; exact bit_high_false hv (by omega)
    · apply toBools_ext (by simp [length_toBools, Spec.bitsOf])
      intro i hi
      simp only
      rw [hb]
      by_cases h1 : i < b.size
      · rw [if_pos h1, List.getElem_append_left (by rw [length_toBools]; exact h1), getElem_toBools]
      · rw [if_neg h1, List.getElem_append_right (by rw [length_toBools]; omega)]
        simp [Spec.bitsOf, length_toBools]
  unfold appendBits
  rw [if_neg h0]
  simp only
  by_cases hp : b.size % 64 = 0
  · rw [if_pos hp]
    refine ⟨_, rfl, key _ (by simp only [List.length_append, List.length_singleton]; unfold wordsFor at *; omega) ?_⟩
    intro i
    have hsz : 64 * b.bits.length = b.size := by unfold wordsFor at hl; omega
    by_cases hi : i < b.size
    · rw [if_pos hi, bitAt_append_left _ (by omega)]
    · rw [if_neg hi, bitAt_append_right _ (by omega), bitAt_single, hsz]
  · rw [if_neg hp, h.cur (by omega)]
    have hc : b.bits.length - 1 < b.bits.length := by unfold wordsFor at hl; omega
    have hblk : b.bits.length - 1 = b.size / 64 := by unfold wordsFor at hl; omega
    simp only [Option.bind_eq_bind, Option.bind_some, wr_of_lt hc, Option.pure_def]
    have hb0 : ∀ i, bitAt (b.bits.set (b.bits.length - 1)
        (b.bits.getD (b.bits.length - 1) 0 ||| (v <<< (b.size % 64)))) i =
        if i < b.size then bitAt b.bits i
        else if i / 64 = b.size / 64 then v.getLsbD (i - b.size) else false := by
      intro i
      rw [bitAt_set _ _ _ hc, hblk]
      by_cases hi : i / 64 = b.size / 64
      · rw [if_pos hi, BitVec.getLsbD_or, BitVec.getLsbD_shiftLeft, getLsbD_getD _ _ _ (by omega)]
        have e : 64 * (b.size / 64) + i % 64 = i := by omega
        have h64 : i % 64 < 64 := by omega
        rw [e]
        by_cases h1 : i < b.size
        · have : i % 64 < b.size % 64 := by omega
          simp [h1, this]
        · have h2 : ¬ i % 64 < b.size % 64 := by omega
          have e2 : i % 64 - b.size % 64 = i - b.size := by omega
          rw [h.high i (by omega)]
          simp [h1, h2, hi, h64, e2]
      · rw [if_neg hi]
        by_cases h1 : i < b.size
        · rw [if_pos h1]
        · rw [if_neg h1, if_neg hi]; exact h.high i (by omega)
    by_cases hbig : len > 64 - b.size % 64
    · rw [if_pos hbig]
      refine ⟨_, rfl, key _ ?_ ?_⟩
      · simp only [List.length_append, List.length_set, List.length_singleton]; unfold wordsFor at *; omega
      · intro i
        by_cases hi : i < 64 * b.bits.length
        · rw [bitAt_append_left _ (by simpa using hi), hb0]
          by_cases h1 : i < b.size
          · simp [h1]
          · have : i / 64 = b.size / 64 := by omega
            simp [h1, this]
        · rw [bitAt_append_right _ (by simpa using hi), bitAt_single, BitVec.getLsbD_ushiftRight]
          have h1 : ¬ i < b.size := by unfold wordsFor at hl; omega
          simp only [List.length_set, h1, if_false]
          congr 1
          unfold wordsFor at hl; omega
    · rw [if_neg hbig]
      refine ⟨_, rfl, key _ ?_ ?_⟩
      · simp only [List.length_set]; unfold wordsFor at *; omega
      · intro i
        rw [hb0]
        by_cases h1 : i < b.size
        · simp [h1]
        · simp only [h1, if_false]
          by_cases h2 : i / 64 = b.size / 64
          · simp [h2]
          · rw [if_neg h2, bit_high_false hv (by omega)]

theorem bitAt_cons (w : W) (ws : List W) (i : Nat) :
    bitAt (w :: ws) i = if i < 64 then w.getLsbD i else bitAt ws (i - 64) := by
  have : w :: ws = [w] ++ ws := rfl
  rw [this]
  by_cases h : i < 64
  · rw [bitAt_append_left _ (by simpa using h), if_pos h, bitAt_single]
  · rw [bitAt_append_right _ (by simp; omega), if_neg h]; simp

theorem appendLoop_spec (shift : Nat) (h1 : 1 ≤ shift) (h64 : shift < 64) :
    ∀ (r : List W) (bits : List W) (cur rsize : Nat), r ≠ [] → cur < bits.length →
      (∀ i, 64 * cur + shift ≤ i → bitAt bits i = false) →
      (∀ i, rsize ≤ i → bitAt r i = false) → rsize ≤ 64 * r.length → 64 * (r.length - 1) < rsize →
      64 * cur + shift + rsize ≤ 64 * bits.length →
      ∃ bits', appendLoop shift r bits cur = some bits' ∧ bits'.length = bits.length ∧
        ∀ i, bitAt bits' i = if i < 64 * cur + shift then bitAt bits i else bitAt r (i - (64 * cur + shift)) := by
  intro r
  induction r with
  | nil => intro bits cur rsize hne; exact absurd rfl hne
  | cons w rest ih =>
    intro bits cur rsize _ hcur hz hrz hr1 hr2 hfit
    -- bits after the write into the current word
    have hA : ∀ i, bitAt (bits.set cur (bits.getD cur 0 ||| (w <<< shift))) i =
        if i < 64 * cur + shift then bitAt bits i
        else if i / 64 = cur then w.getLsbD (i - (64 * cur + shift)) else false := by
      intro i
      rw [bitAt_set _ _ _ hcur]
      by_cases hi : i / 64 = cur
      · rw [if_pos hi, BitVec.getLsbD_or, BitVec.getLsbD_shiftLeft, getLsbD_getD _ _ _ (by omega)]
        have e : 64 * cur + i % 64 = i := by omega
        have h6 : i % 64 < 64 := by omega
        rw [e]
        by_cases hlt : i < 64 * cur + shift
        · have : i % 64 < shift := by omega
          simp [hlt, this]
        · have h2 : ¬ i % 64 < shift := by omega
          have e2 : i % 64 - shift = i - (64 * cur + shift) := by omega
          rw [hz i (by omega)]
          simp [hlt, h2, hi, h6, e2]
      · rw [if_neg hi]
        by_cases hlt : i < 64 * cur + shift
        · rw [if_pos hlt]
        · rw [if_neg hlt, if_neg hi]; exact hz i (by omega)
    have hB : ∀ (hc1 : cur + 1 < bits.length) (i : Nat),
        bitAt ((bits.set cur (bits.getD cur 0 ||| (w <<< shift))).set (cur + 1) (w >>> (64 - shift))) i =
        if i < 64 * cur + shift then bitAt bits i
        else w.getLsbD (i - (64 * cur + shift)) := by
      intro hc1 i
      rw [bitAt_set _ _ _ (by simpa using hc1), hA]
      by_cases hi : i / 64 = cur + 1
      · rw [if_pos hi, if_neg (by omega), BitVec.getLsbD_ushiftRight]; congr 1; omega
      · rw [if_neg hi]
        by_cases hlt : i < 64 * cur + shift
        · rw [if_pos hlt, if_pos hlt]
        · rw [if_neg hlt, if_neg hlt]
          by_cases hc : i / 64 = cur
          · rw [if_pos hc]
          · rw [if_neg hc, BitVec.getLsbD_of_ge _ _ (by omega)]
    cases rest with
    | nil =>
      simp only [appendLoop, wr_of_lt hcur, Option.bind_eq_bind, Option.bind_some, List.length_set,
        Option.pure_def]
      simp only [List.length_singleton] at hr1 hr2
      by_cases hc : cur < bits.length - 1
      · rw [if_pos hc, wr_of_lt (by simp; omega)]
        refine ⟨_, rfl, by simp, fun i => ?_⟩
        rw [hB (by omega), bitAt_single]
      · rw [if_neg hc]
        refine ⟨_, rfl, by simp, fun i => ?_⟩
        rw [hA, bitAt_single]
        by_cases hlt : i < 64 * cur + shift
        · rw [if_pos hlt, if_pos hlt]
        · rw [if_neg hlt, if_neg hlt]
          by_cases hi : i / 64 = cur
          · rw [if_pos hi]
          · rw [if_neg hi]
            have := hrz (i - (64 * cur + shift)) (by omega)
            rw [bitAt_single] at this; exact this.symm
    | cons w2 rest2 =>
      have hcons : appendLoop shift (w :: w2 :: rest2) bits cur = (do
          let bits ← wr bits cur (fun x => x ||| (w <<< shift))
          let bits ← wr bits (cur + 1) (fun _ => w >>> (64 - shift))
          appendLoop shift (w2 :: rest2) bits (cur + 1)) := by
        simp [appendLoop]
      have hlr : (w :: w2 :: rest2).length = rest2.length + 2 := rfl
      rw [hlr] at hr1 hr2
      have hc1 : cur + 1 < bits.length := by omega
      rw [hcons]
      simp only [wr_of_lt hcur, Option.bind_eq_bind, Option.bind_some]
      rw [wr_of_lt (by simpa using hc1)]
      simp only [Option.bind_some]
      obtain ⟨b', e', l', hb'⟩ := ih ((bits.set cur (bits.getD cur 0 ||| (w <<< shift))).set (cur + 1)
          (w >>> (64 - shift))) (cur + 1) (rsize - 64) (by simp) (by simpa using hc1)
        (by intro i hi; rw [hB hc1, if_neg (by omega), BitVec.getLsbD_of_ge _ _ (by omega)])
        (by intro i hi
            have := hrz (i + 64) (by omega)
            rw [bitAt_cons, if_neg (by omega)] at this
            simpa using this)
        (by simp only [List.length_cons]; omega)
        (by simp only [List.length_cons]; omega)
        (by simp only [List.length_set]; omega)
      refine ⟨b', e', by rw [l']; simp, fun i => ?_⟩
      rw [hb']
      by_cases hlt : i < 64 * (cur + 1) + shift
      · rw [if_pos hlt, hB hc1]
        by_cases hlt2 : i < 64 * cur + shift
        · rw [if_pos hlt2, if_pos hlt2]
        · rw [if_neg hlt2, if_neg hlt2, bitAt_cons, if_pos (by omega)]
      · rw [if_neg hlt, if_neg (by omega), bitAt_cons w, if_neg (by omega)]
        congr 1; omega

theorem append_wf {b rhs : BVBuilder} (h : b.WF) (hr : rhs.WF) :
    ∃ b', b.append rhs = some b' ∧ b'.WF ∧ b'.toBools = b.toBools ++ rhs.toBools := by
  by_cases h0 : rhs.size = 0
  · refine ⟨b, by unfold append; rw [if_pos h0], h, ?_⟩
    have : rhs.toBools = [] := List.eq_nil_of_length_eq_zero (by rw [length_toBools, h0])
    rw [this, List.append_nil]
  have hl := h.len
  have hrl := hr.len
  have key : ∀ ws : List W, ws.length = wordsFor (b.size + rhs.size) →
      (∀ i, bitAt ws i = if i < b.size then bitAt b.bits i else bitAt rhs.bits (i - b.size)) →
      BVBuilder.WF { bits := ws, size := b.size + rhs.size, curWord := some (ws.length - 1) } ∧
      BVBuilder.toBools { bits := ws, size := b.size + rhs.size, curWord := some (ws.length - 1) } =
        b.toBools ++ rhs.toBools := by
    intro ws hw hb
    refine ⟨⟨hw, ?_, fun _ => rfl⟩, ?_⟩
    · intro i hi; simp only at hi ⊢
      rw [hb, if_neg (by omega)]; exact hr.high _ (by omega)
    · apply toBools_ext (by simp [length_toBools])
      intro i hi
      simp only
      rw [hb]
      by_cases h1 : i < b.size
      · rw [if_pos h1, List.getElem_append_left (by rw [length_toBools]; exact h1), getElem_toBools]
      · rw [if_neg h1, List.getElem_append_right (by rw [length_toBools]; omega), getElem_toBools,
          length_toBools]
  have hres : b.bits.length ≤ wordsFor (b.size + rhs.size) := by unfold wordsFor at *; omega
  unfold append
  rw [if_neg h0]
  simp only [Option.bind_eq_bind, Option.pure_def]
  by_cases hs : b.size % 64 = 0
  · rw [if_pos hs]
    have hsz : 64 * b.bits.length = b.size := by unfold wordsFor at hl; omega
    have hfull : b.bits.length + rhs.bits.length = wordsFor (b.size + rhs.size) := by
      unfold wordsFor at *; omega
    unfold copyAt
    rw [length_resizeWords, if_pos (by omega)]
    simp only [Option.bind_some]
    have hcopy : (resizeWords b.bits (wordsFor (b.size + rhs.size))).take b.bits.length ++ rhs.bits ++
        (resizeWords b.bits (wordsFor (b.size + rhs.size))).drop (b.bits.length + rhs.bits.length)
        = b.bits ++ rhs.bits := by
      rw [List.drop_eq_nil_of_le (by rw [length_resizeWords]; omega), List.append_nil]
      congr 1
      unfold resizeWords
      rw [List.take_of_length_le (l := b.bits) hres, List.take_left']
      rfl
    rw [hcopy]
    refine ⟨_, rfl, key _ (by simp; omega) ?_⟩
    intro i
    by_cases hi : i < b.size
    · rw [if_pos hi, bitAt_append_left _ (by omega)]
    · rw [if_neg hi, bitAt_append_right _ (by omega), hsz]
  · have hpos : b.bits.length ≠ 0 := by unfold wordsFor at hl; omega
    rw [if_neg hs, if_neg hpos]
    have hblk : 64 * (b.bits.length - 1) + b.size % 64 = b.size := by unfold wordsFor at hl; omega
    obtain ⟨ws, e, hlen, hb⟩ := appendLoop_spec (b.size % 64) (by omega) (by omega) rhs.bits
      (resizeWords b.bits (wordsFor (b.size + rhs.size))) (b.bits.length - 1) rhs.size
      (by intro e; rw [e] at hrl; simp only [List.length_nil] at hrl; unfold wordsFor at hrl; omega)
      (by rw [length_resizeWords]; omega)
      (by intro i hi; rw [bitAt_resizeWords hres]; exact h.high i (by omega))
      hr.high hr.le
      (by rw [hrl]; unfold wordsFor; omega)
      (by rw [length_resizeWords, hblk]; exact (by unfold wordsFor; omega))
    rw [e]
    simp only [Option.bind_some]
    refine ⟨_, rfl, key _ (by rw [hlen, length_resizeWords]) ?_⟩
    intro i
    rw [hb, hblk, bitAt_resizeWords hres]

end BVBuilder

/-! ## Proofs: bit_vector accessors -/

namespace BitVector

theorem getBits_spec {bv : BitVector} {pos len : Nat} (h : pos + len ≤ 64 * bv.bits.length)
    (hlen : len ≤ 64) :
    ∃ x, bv.getBits pos len = some x ∧
      ∀ j, x.getLsbD j = (decide (j < len) && bitAt bv.bits (pos + j)) := by
  unfold getBits
  by_cases h0 : len = 0
  · subst h0; exact ⟨0, rfl, by simp⟩
  · rw [if_neg h0]
    exact readField_spec _ _ _ (by omega) hlen h

theorem get_spec {bv : BitVector} {i : Nat} (h : i < 64 * bv.bits.length) :
    bv.get i = some (if bitAt bv.bits i then 1#64 else 0#64) := by
  unfold get
  rw [rd_of_lt (by omega)]
  simp only [Option.bind_eq_bind, Option.bind_some, Option.pure_def]
  congr 1
  apply BitVec.eq_of_getLsbD_eq
  intro j hj
  have h1 := getLsbD_one64
  rw [BitVec.getLsbD_and, BitVec.getLsbD_ushiftRight, h1]
  by_cases h0 : j = 0
  · subst h0
    rw [getLsbD_getD _ _ _ (by omega)]
    have : 64 * (i / 64) + (i % 64 + 0) = i := by omega
    rw [this]
    cases bitAt bv.bits i <;> simp [h1]
  · cases bitAt bv.bits i <;> simp [h1, h0]

theorem getWord64_spec {ws : List W} {pos : Nat} (h : pos < 64 * ws.length) :
    ∃ x, getWord64 ws pos = some x ∧ ∀ j, j < 64 → x.getLsbD j = bitAt ws (pos + j) := by
  unfold getWord64
  simp only [rd_of_lt (show pos / 64 < ws.length by omega), Option.bind_eq_bind, Option.bind_some,
    Option.pure_def]
  by_cases hc : pos % 64 ≠ 0 ∧ pos / 64 + 1 < ws.length
  · rw [if_pos hc, rd_of_lt hc.2]
    refine ⟨_, rfl, fun j hj => ?_⟩
    rw [BitVec.getLsbD_or, BitVec.getLsbD_ushiftRight, BitVec.getLsbD_shiftLeft]
    by_cases hs : pos % 64 + j < 64
    · rw [getLsbD_getD _ _ _ hs]
      have e : 64 * (pos / 64) + (pos % 64 + j) = pos + j := by omega
      have hk : j < 64 - pos % 64 := by omega
      simp [e, hk]
    · rw [BitVec.getLsbD_of_ge _ _ (by omega), getLsbD_getD _ _ _ (by omega)]
      have e : 64 * (pos / 64 + 1) + (j - (64 - pos % 64)) = pos + j := by omega
      have hk : ¬ j < 64 - pos % 64 := by omega
      simp [e, hk, hj]
  · rw [if_neg hc]
    refine ⟨_, rfl, fun j hj => ?_⟩
    rw [BitVec.getLsbD_ushiftRight]
    by_cases hs : pos % 64 + j < 64
    · rw [getLsbD_getD _ _ _ hs]
      congr 1; omega
    · rw [BitVec.getLsbD_of_ge _ _ (by omega), bitAt_of_ge (by omega)]

theorem getWord56_spec {ws junk : List W} (hj : junk ≠ []) {pos : Nat} (h : pos < 64 * ws.length) :
    ∃ x, getWord56 ws junk pos = some x ∧ ∀ j, pos % 8 + j < 64 → x.getLsbD j = bitAt (ws ++ junk) (pos + j) := by
  have hjl : 0 < junk.length := List.length_pos_iff.2 hj
  unfold getWord56
  simp only
  split
  case isTrue h8 =>
    rw [rd_of_lt (by rw [List.length_append]; omega)]
    refine ⟨_, rfl, fun j hj => ?_⟩
    rw [BitVec.getLsbD_ushiftRight, getLsbD_getD _ _ _ hj]; congr 1; omega
  case isFalse h8 =>
    rw [rd_of_lt (by rw [List.length_append]; omega), rd_of_lt (by rw [List.length_append]; omega)]
    refine ⟨_, rfl, fun j hj => ?_⟩
    rw [BitVec.getLsbD_ushiftRight, BitVec.getLsbD_or, BitVec.getLsbD_ushiftRight, BitVec.getLsbD_shiftLeft]
    by_cases hc : pos % 8 + j < 64 - 8 * (pos / 8 % 8)
    · rw [getLsbD_getD _ _ _ (by omega)]
      have : 64 * (pos / 8 / 8) + (8 * (pos / 8 % 8) + (pos % 8 + j)) = pos + j := by omega
      simp [hc, this]
    · rw [BitVec.getLsbD_of_ge _ _ (by omega), getLsbD_getD _ _ _ (by omega)]
      have : 64 * (pos / 8 / 8 + 1) + (pos % 8 + j - (64 - 8 * (pos / 8 % 8))) = pos + j := by omega
      simp [hc, this, hj]

theorem predLoop_spec {ws : List W} (p : Nat) (hp : bitAt ws p = true) :
    ∀ (block : Nat) (word : W) (pos : Nat), block ≤ ws.length → p ≤ pos → pos / 64 = block →
      (∀ j, j < 64 → word.getLsbD j = (decide (64 * block + j ≤ pos) && bitAt ws (64 * block + j))) →
      (∀ q, p < q → q ≤ pos → bitAt ws q = false) →
      predLoop ws block word = some p := by
  intro block
  induction block with
  | zero =>
    intro word pos _ hpp hb hw hz
    have hpw : word.getLsbD p = true := by
      rw [hw p (by omega)]; simp [hp, hpp]
    have hne : word ≠ 0#64 := by intro e; rw [e] at hpw; simp at hpw
    have hm := msb_bit hne
    have hm64 := msb_lt_64 hne
    have : msb word = p := by
      rcases Nat.lt_trichotomy (msb word) p with h | h | h
      · rw [hm.2 p h] at hpw; exact absurd hpw (by simp)
      · exact h
      · have h2 := hm.1
        rw [hw _ hm64] at h2
        simp only [Nat.mul_zero, Nat.zero_add, Bool.and_eq_true, decide_eq_true_eq] at h2
        rw [hz _ h h2.1] at h2; exact absurd h2.2 (by simp)
    unfold predLoop
    rw [msb?_eq hne, this]; simp
  | succ block ih =>
    intro word pos hl hpp hb hw hz
    by_cases hin : p / 64 = block + 1
    · have hpw : word.getLsbD (p % 64) = true := by
        rw [hw _ (by omega)]
        have : 64 * (block + 1) + p % 64 = p := by omega
        simp [this, hp, hpp]
      have hne : word ≠ 0#64 := by intro e; rw [e] at hpw; simp at hpw
      have hm := msb_bit hne
      have hm64 := msb_lt_64 hne
      have : msb word = p % 64 := by
        rcases Nat.lt_trichotomy (msb word) (p % 64) with h | h | h
        · rw [hm.2 _ h] at hpw; exact absurd hpw (by simp)
        · exact h
        · have h2 := hm.1
          rw [hw _ hm64] at h2
          simp only [Bool.and_eq_true, decide_eq_true_eq] at h2
          rw [hz _ (by omega) h2.1] at h2; exact absurd h2.2 (by simp)
      unfold predLoop
      rw [msb?_eq hne, this]; simp only; congr 1; omega
    · have hzero : word = 0#64 := by
        apply BitVec.eq_of_getLsbD_eq
        intro j hj
        rw [hw j hj]
        by_cases hle : 64 * (block + 1) + j ≤ pos
        · rw [hz _ (by omega) hle]; simp
        · simp [hle]
      unfold predLoop
      rw [hzero]
      simp only [msb?, if_true]
      rw [rd_of_lt (by omega)]
      simp only
      exact ih _ (64 * block + 63) (by omega) (by omega) (by omega)
        (by intro j hj; rw [getLsbD_getD _ _ _ hj]
            have : 64 * block + j ≤ 64 * block + 63 := by omega
            simp only [this, decide_true, Bool.true_and])
        (by intro q h1 h2; exact hz q h1 (by omega))

/-- `predecessor1(pos)` is the last set bit at or before `pos`. -/
theorem predecessor1_spec {ws : List W} {pos p : Nat} (hpos : pos < 64 * ws.length)
    (hp : bitAt ws p = true) (hle : p ≤ pos) (hz : ∀ q, p < q → q ≤ pos → bitAt ws q = false) :
    predecessor1 ws pos = some p := by
  unfold predecessor1
  simp only
  rw [rd_of_lt (by omega)]
  simp only [Option.bind_eq_bind, Option.bind_some]
  apply predLoop_spec p hp _ _ pos (by omega) hle rfl _ hz
  intro j hj
  rw [BitVec.getLsbD_ushiftRight, BitVec.getLsbD_shiftLeft]
  by_cases hc : 64 * (pos / 64) + j ≤ pos
  · have h1 : 64 - pos % 64 - 1 + j < 64 := by omega
    have h2 : ¬ (64 - pos % 64 - 1 + j < 64 - pos % 64 - 1) := by omega
    have h3 : 64 - pos % 64 - 1 + j - (64 - pos % 64 - 1) = j := by omega
    rw [h3, getLsbD_getD _ _ _ hj]; simp [hc, h1, h2]
  · have h1 : ¬ 64 - pos % 64 - 1 + j < 64 := by omega
    simp [hc, h1]

end BitVector
end Tongrams
